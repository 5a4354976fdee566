import Verif.Lemmas.EnvelopeSearch
import Verif.Props.Nuclear
import Verif.Props.NonConvex
import Verif.Props.StepGuard

/-!
# C84, C85: the quadratic envelopes of a sparsity and of a rank constraint
-/

open scoped RealInnerProductSpace

namespace Verif

/-- What is assumed of `np.argsort`: it returns a permutation that sorts (ties in any order). -/
def ArgsortExact {n : ℕ} (argsort : (Fin n → ℝ) → Equiv.Perm (Fin n)) : Prop := ∀ a : Fin n → ℝ, Monotone fun k => a (argsort a k)

/-- There is such a function. -/
lemma exists_argsort (n : ℕ) : ArgsortExact (n := n) Tuple.sort := fun a => Tuple.monotone_sort a

/-- C01 for the quadratic envelopes of the sparsity and rank constraints. -/
theorem C01_envelopes {n c : ℕ} {ι : Type} [Fintype ι] (argsort : (Fin n → ℝ) → Equiv.Perm (Fin n)) (θ : ℝ → ℝ) (r0 : ℕ)
    (svd : Vec (ι × Fin c) → SVD ι (Fin c) (Fin n)) (eig : Vec (ι × Fin c) → Fin c → ℝ) (M : Vec (ι × Fin c)) :
    RejectsBadTau (QuadraticEnvelopeCardIndicator argsort θ r0) ∧ RejectsBadTau (QuadraticEnvelopeRankL2 svd eig argsort r0 M) := by
  refine ⟨?_, ?_⟩ <;> refine rejects_of_guarded _ (fun m hm x τ hτ => ?_) (fun m hm x τ hτ => ?_) <;> first
    | (cases hm; done)
    | (cases hm; exact checkTau_nonpos hτ _)

section l0
variable {ι : Type} [Fintype ι]

/-- C33: the value of `QuadraticEnvelopeCard(mu)` is the quadratic envelope of `mu` times the number of non-zero entries. -/
theorem C33_qec_is_envelope (μ : ℝ) (hμ : 0 ≤ μ) (x : Vec ι) :
    x ∈ (l0Fun ι μ).quadEnvelope.dom ∧ (QuadraticEnvelopeCard μ).call x = .ok (.num ((l0Fun ι μ).quadEnvelope.val x)) := by
  classical
  have hm0 := Real.sqrt_nonneg (2 * μ)
  have hm2 : √(2 * μ) ^ 2 = 2 * μ := Real.sq_sqrt (by linarith)
  set m := √(2 * μ) with hm
  let z : ι → ℝ := fun i => npsign (x i) * max |x i| m
  have hzabs : ∀ i, x i ≠ 0 → |z i| = max |x i| m := by
    intro i hi
    change |npsign (x i) * max |x i| m| = _
    rw [abs_mul, abs_of_nonneg (a := max |x i| m) (le_trans (abs_nonneg _) (le_max_left _ _))]
    have : |npsign (x i)| = 1 := by
      rcases mul_self_eq_one_iff.1 (npsign_sq hi) with h | h <;> simp [h]
    rw [this, one_mul]
  have hxz : ∀ i, x i * z i = |x i| * max |x i| m := by
    intro i
    change x i * (npsign (x i) * max |x i| m) = _
    rw [← mul_assoc, mul_comm (x i), npsign_mul_self]
  have hcount : ∀ u : Vec ι, ({i | u i ≠ 0}.ncard : ℝ) = ∑ i, if u i ≠ 0 then (1 : ℝ) else 0 := by
    intro u
    rw [ncard_support_eq, Finset.card_filter]; push_cast; rfl
  have key := quadEnvelope_of_cert (F := l0Fun ι μ) ⟨0, trivial⟩ (p := x) (z := vmk z) (c := ∑ i, max 0 (z i ^ 2 / 2 - μ)) (by
      intro u _
      simp only [l0Fun]
      rw [hcount, vec_inner, vec_norm_sq, Finset.mul_sum, Finset.sum_div, ← Finset.sum_add_distrib, ← Finset.sum_sub_distrib]
      refine Finset.sum_le_sum fun i _ => ?_
      change z i * u i - _ ≤ _
      by_cases hu : u i = 0
      · simp [hu]
      · rw [if_pos hu]
        refine le_trans ?_ (le_max_right _ _)
        nlinarith [sq_nonneg (z i - u i)])
    (by
      intro v hv
      let u : Vec ι := vmk fun i => if 0 < v i ^ 2 / 2 - μ then v i else 0
      have h3 : ⟪v, u⟫ - ((l0Fun ι μ).val u + ‖u‖ ^ 2 / 2) ≤ (l0Fun ι μ).addHalfSq.conj.val v := le_csSup hv ⟨u, trivial, rfl⟩
      have h4 : ∑ i, max 0 (v i ^ 2 / 2 - μ) ≤ ⟪v, u⟫ - ((l0Fun ι μ).val u + ‖u‖ ^ 2 / 2) := by
        simp only [l0Fun]
        rw [hcount, vec_inner, vec_norm_sq, Finset.mul_sum, Finset.sum_div, ← Finset.sum_add_distrib, ← Finset.sum_sub_distrib]
        refine Finset.sum_le_sum fun i _ => ?_
        change _ ≤ v i * (if 0 < v i ^ 2 / 2 - μ then v i else 0) - (μ * (if (if 0 < v i ^ 2 / 2 - μ then v i else 0) ≠ 0 then 1 else 0)
          + (if 0 < v i ^ 2 / 2 - μ then v i else 0) ^ 2 / 2)
        by_cases hi : 0 < v i ^ 2 / 2 - μ
        · simp only [if_pos hi, max_eq_right hi.le]
          split_ifs <;> nlinarith
        · simp only [if_neg hi, max_eq_left (not_lt.1 hi)]
          simp
      have h5 : ⟪x, v⟫ - ∑ i, max 0 (v i ^ 2 / 2 - μ) ≤ ⟪x, (vmk z : Vec ι)⟫ - ∑ i, max 0 (z i ^ 2 / 2 - μ) := by
        rw [vec_inner, vec_inner, ← Finset.sum_sub_distrib, ← Finset.sum_sub_distrib]
        refine Finset.sum_le_sum fun i _ => ?_
        change x i * v i - _ ≤ x i * z i - _
        rw [hxz]
        have hxv : x i * v i ≤ |x i| * |v i| := by rw [← abs_mul]; exact le_abs_self _
        have hv2 : v i ^ 2 = |v i| ^ 2 := (sq_abs _).symm
        have hvn := abs_nonneg (v i)
        have hxn := abs_nonneg (x i)
        by_cases hi : x i = 0
        · have : z i = 0 := by change npsign (x i) * _ = 0; rw [hi]; simp [npsign]
          rw [this, hi]
          simp [hμ]
        · rw [← sq_abs (z i), hzabs i hi]
          rcases le_total |x i| m with h | h
          · rw [max_eq_right h, hm2, mul_div_cancel_left₀ _ (by norm_num : (2 : ℝ) ≠ 0), sub_self, max_self]
            have h6 := le_max_right 0 (v i ^ 2 / 2 - μ)
            have h7 := le_max_left 0 (v i ^ 2 / 2 - μ)
            rw [hv2] at h6 h7 ⊢
            rcases le_total |v i| m with h8 | h8
            · nlinarith
            · nlinarith [mul_nonneg (sub_nonneg.2 h8) (sub_nonneg.2 h), sq_nonneg (|v i| - m)]
          · rw [max_eq_left h, max_eq_right (by nlinarith : 0 ≤ |x i| ^ 2 / 2 - μ)]
            have h6 := le_max_right 0 (v i ^ 2 / 2 - μ)
            nlinarith [sq_nonneg (|v i| - |x i|)]
      linarith)
  refine ⟨key.1, ?_⟩
  rw [C33_qec_call μ hμ, key.2.1, vec_inner, vec_norm_sq, Finset.sum_div, ← Finset.sum_sub_distrib, ← Finset.sum_sub_distrib]
  congr 2
  refine Finset.sum_congr rfl fun i _ => ?_
  change mcpSpec μ (x i) = x i * z i - _ - _
  rw [hxz, mcpSpec, ← hm]
  by_cases hi : x i = 0
  · have : z i = 0 := by change npsign (x i) * _ = 0; rw [hi]; simp [npsign]
    rw [this, hi]
    simp [hμ, hm0, hm2]
  · rw [← sq_abs (z i), hzabs i hi, ← sq_abs (x i)]
    rcases le_total |x i| m with h | h
    · rw [max_eq_right h, max_eq_right (by linarith : 0 ≤ m - |x i|), hm2, mul_div_cancel_left₀ _ (by norm_num : (2 : ℝ) ≠ 0), sub_self, max_self]
      nlinarith
    · rw [max_eq_left h, max_eq_left (by linarith : m - |x i| ≤ 0), max_eq_right (by nlinarith [abs_nonneg (x i)] : 0 ≤ |x i| ^ 2 / 2 - μ)]
      ring

end l0

section card
variable {n : ℕ}

/-- C84: for `0 < tau < 1` and `r0 ≥ 1`, `QuadraticEnvelopeCardIndicator.prox` returns the unique minimiser of
`Q(x) + ‖x - y‖² / (2 tau)`, where `Q` is the quadratic envelope of the indicator of the vectors with at most `r0` non-zero entries. -/
theorem C84_card_prox_partial (argsort : (Fin n → ℝ) → Equiv.Perm (Fin n)) (hsort : ArgsortExact argsort) (θ : ℝ → ℝ) (r0 : ℕ) (hr0 : 1 ≤ r0)
    (y : Vec (Fin n)) (τ : ℝ) (hτ : 0 < τ) (hτ1 : τ < 1) :
    ∃ p, (QuadraticEnvelopeCardIndicator argsort θ r0).prox y τ = .ok p ∧
      IsUniqueProx (XFun.indicator (sparseSet (Fin n) r0)).quadEnvelope τ y p := by
  have hρ : 1 < 1 / τ := by rw [lt_div_iff₀ hτ]; linarith
  have hrun : (QuadraticEnvelopeCardIndicator argsort θ r0).prox y τ = cardEnvProx argsort θ r0 y τ := checkTau_pos hτ _
  rw [hrun]
  unfold cardEnvProx
  simp only [if_neg (not_le.2 hρ)]
  by_cases hn : n ≤ r0
  · rw [dif_pos hn]
    refine ⟨y, rfl, ?_⟩
    have hcert : TopCert r0 y.ofLp (fun _ => 1) 0 := by
      refine ⟨fun _ => zero_le_one, fun _ => le_rfl, ?_, le_rfl, zero_mul _, fun i hi => absurd hi (lt_irrefl _), fun i _ => abs_nonneg _⟩
      simp only [Finset.sum_const, Finset.card_univ, Fintype.card_fin, nsmul_eq_mul, mul_one]
      exact_mod_cast hn
    exact sparse_envelope_prox hτ hτ1 hcert (fun i => by ring) (fun i => by ring)
  · rw [dif_neg hn]
    set id := argsort fun i => - |y i| with hid
    have hanti : Antitone fun k => |y (id k)| := by
      intro i j hij
      have := hsort (fun i => - |y i|) hij
      simp only [neg_le_neg_iff] at this
      exact this
    have ha0 : ∀ k, 0 ≤ |y (id k)| := fun k => abs_nonneg _
    have hprev : (⟨if r0 = 0 then n - 1 else r0 - 1, by split <;> omega⟩ : Fin n) = ⟨r0 - 1, by omega⟩ := by
      rw [Fin.ext_iff]; exact if_neg (by omega)
    simp only [hprev]
    by_cases hgap : 1 / τ * |y (id ⟨r0, by omega⟩)| < |y (id ⟨r0 - 1, by omega⟩)|
    · rw [if_pos hgap]
      refine ⟨_, rfl, ?_⟩
      refine cardOut_isProx hτ hτ1 (by omega) y id (s := |y (id ⟨r0 - 1, by omega⟩)|) (abs_nonneg _) hanti ?_ _ ?_
      · unfold rootFun
        rw [Finset.sum_eq_zero, Finset.sum_eq_zero, sub_zero]
        · intro k hk
          rw [Finset.mem_compl, mem_topPos] at hk
          have h1 : |y (id k)| ≤ |y (id ⟨r0, by omega⟩)| := hanti (by rw [Fin.le_def]; exact not_lt.1 hk)
          rw [max_eq_right]
          nlinarith
        · intro k hk
          rw [mem_topPos] at hk
          have h1 : |y (id ⟨r0 - 1, by omega⟩)| ≤ |y (id k)| := hanti (by rw [Fin.le_def]; change k.val ≤ r0 - 1; omega)
          rw [max_eq_right (by linarith), mul_zero]
      · intro k
        unfold cardNew
        by_cases hk : k.val < r0
        · rw [if_pos hk, if_pos (mem_topPos.2 hk), max_eq_left]
          exact hanti (by rw [Fin.le_def]; change k.val ≤ r0 - 1; omega)
        · rw [if_neg hk, if_neg (fun h => hk (mem_topPos.1 h)), min_eq_left]
          have h1 : |y (id k)| ≤ |y (id ⟨r0, by omega⟩)| := hanti (by rw [Fin.le_def]; exact not_lt.1 hk)
          nlinarith
    · rw [if_neg hgap]
      obtain ⟨s, hs, hroot, hres⟩ := cardSearch_root hρ hanti ha0 ⟨r0, by omega⟩ ⟨r0 - 1, by omega⟩ rfl
        (by change r0 - 1 + 1 = r0; omega) hgap y id
      refine ⟨_, hres, cardOut_isProx hτ hτ1 (by omega) y id hs hanti hroot _ fun k => ?_⟩
      unfold cardClip cardNew
      by_cases hk : k.val < r0
      · simp only [if_pos hk, if_pos (mem_topPos.2 hk)]
      · rw [if_neg hk, if_neg hk, if_neg (fun h => hk (mem_topPos.1 h))]

/-- The hypotheses of C84 are met. -/
example : ∃ p, (QuadraticEnvelopeCardIndicator Tuple.sort (fun τ => √(2 * τ)) 1).prox (vmk ![1, 2] : Vec (Fin 2)) (1 / 2) = .ok p ∧
      IsUniqueProx (XFun.indicator (sparseSet (Fin 2) 1)).quadEnvelope (1 / 2) (vmk ![1, 2]) p :=
  C84_card_prox_partial _ (exists_argsort 2) _ 1 le_rfl _ _ (by norm_num) (by norm_num)

/-- C84: the value returned by `QuadraticEnvelopeCardIndicator(x)` is the value of the quadratic envelope, at every `x` where a value is
returned and which has at most `r0` non-zero entries or for which `r0 ≥ 2`. -/
theorem C84_card_call_partial (argsort : (Fin n → ℝ) → Equiv.Perm (Fin n)) (θ : ℝ → ℝ) (r0 : ℕ) (x : Vec (Fin n))
    (h : 2 ≤ r0 ∨ x ∈ sparseSet (Fin n) r0) :
    x ∈ (XFun.indicator (sparseSet (Fin n) r0)).quadEnvelope.dom ∧
    (QuadraticEnvelopeCardIndicator argsort θ r0).call x = .ok (.num ((XFun.indicator (sparseSet (Fin n) r0)).quadEnvelope.val x)) := by
  classical
  have hcall : (QuadraticEnvelopeCardIndicator argsort θ r0).call x = Except.map CallVal.num (cardEnvCall r0 x) := by
    simp only [QuadraticEnvelopeCardIndicator]
    cases cardEnvCall r0 x <;> rfl
  rw [hcall]
  unfold cardEnvCall
  by_cases hs : x ∈ sparseSet (Fin n) r0
  · have hs' := hs
    simp only [sparseSet, Set.mem_ofPred_eq] at hs'
    obtain ⟨h1, h2⟩ := sparse_envelope_value (topCert_of_sparse hs') (x := x) (fun i => by by_cases hi : x i = 0 <;> simp [hi])
    refine ⟨h1, ?_⟩
    rw [ncard_support_eq] at hs'
    rw [if_pos (Or.inr hs'), h2]
    have : ∑ i, (if x i = 0 then (0 : ℝ) else 1) * x i ^ 2 = ∑ i, x i ^ 2 := Finset.sum_congr rfl fun i _ => by
      by_cases hi : x i = 0 <;> simp [hi]
    rw [this, sub_self, zero_div]
    rfl
  · have hr : 2 ≤ r0 := h.resolve_right hs
    simp only [sparseSet, Set.mem_ofPred_eq, not_le] at hs
    rw [ncard_support_eq] at hs
    have hrn : r0 < n := lt_of_lt_of_le hs (by simpa using Finset.card_le_univ (Finset.univ.filter fun i => x i ≠ 0))
    obtain ⟨s, h0, h1, h2⟩ := card_level (by omega : 1 ≤ r0) x.ofLp hs
    obtain ⟨c1, c2, c3⟩ := topCert_of_level h0 h1
    obtain ⟨e1, e2⟩ := sparse_envelope_value c1 (x := x) c2
    refine ⟨e1, ?_⟩
    rw [if_neg (by rintro (hc | hc) <;> omega), if_neg (by omega), e2, c3]
    simp only
    rw [h2]
    rfl

/-- The envelope is not trivial: for `r0 = 2` and three equal entries `t ≥ 0` the value is `3 t² / 4`. -/
example (t : ℝ) (ht : 0 < t) : (QuadraticEnvelopeCardIndicator (n := 3) Tuple.sort (fun τ => √(2 * τ)) 2).call (vmk fun _ => t) = .ok (.num (3 / 4 * t ^ 2)) := by
  rw [(C84_card_call_partial Tuple.sort (fun τ => √(2 * τ)) 2 (vmk fun _ => t : Vec (Fin 3)) (Or.inl le_rfl)).2]
  obtain ⟨c1, c2, c3⟩ := topCert_of_level (r := 2) (x := fun _ : Fin 3 => t) (s := 3 / 2 * t) (by linarith)
    (by simp [abs_of_pos ht, min_eq_left (show t ≤ 3 / 2 * t by linarith)]; ring)
  rw [(sparse_envelope_value c1 (x := vmk fun _ => t) c2).2, c3]
  simp only [abs_of_pos ht, max_eq_left (show 0 ≤ 3 / 2 * t - t by linarith), Finset.sum_const, Finset.card_univ, Fintype.card_fin, nsmul_eq_mul]
  congr 2
  push_cast
  ring

/-- C84 fails for `r0 = 1` (and `r0 = 0`): evaluating a vector with more than `r0` non-zero entries is a `ValueError`, while the envelope is finite there
for `r0 = 1`. -/
theorem C84_card_call_refuted (argsort : (Fin n → ℝ) → Equiv.Perm (Fin n)) (θ : ℝ → ℝ) (r0 : ℕ) (hr : r0 ≤ 1) (x : Vec (Fin n))
    (hx : x ∉ sparseSet (Fin n) r0) :
    (QuadraticEnvelopeCardIndicator argsort θ r0).call x = .error .valueError ∧
      (r0 = 1 → x ∈ (XFun.indicator (sparseSet (Fin n) r0)).quadEnvelope.dom) := by
  classical
  simp only [sparseSet, Set.mem_ofPred_eq, not_le] at hx
  rw [ncard_support_eq] at hx
  have hrn : r0 < n := lt_of_lt_of_le hx (by simpa using Finset.card_le_univ (Finset.univ.filter fun i => x i ≠ 0))
  constructor
  · simp only [QuadraticEnvelopeCardIndicator, cardEnvCall]
    rw [if_neg (by rintro (hc | hc) <;> omega), if_pos hr]
    rfl
  · rintro rfl
    obtain ⟨s, h0, h1, -⟩ := card_level le_rfl x.ofLp hx
    obtain ⟨c1, c2, -⟩ := topCert_of_level h0 h1
    exact (sparse_envelope_value c1 (x := x) c2).1

/-- Such vectors exist. -/
example : (vmk ![1, 1] : Vec (Fin 2)) ∉ sparseSet (Fin 2) 1 := by
  classical
  simp only [sparseSet, Set.mem_ofPred_eq, not_le]
  rw [ncard_support_eq]
  have : (Finset.univ.filter fun i : Fin 2 => (vmk ![(1 : ℝ), 1] : Vec (Fin 2)) i ≠ 0) = Finset.univ := by
    ext i; fin_cases i <;> simp
  rw [this]; simp

/-- Lower bound of the proximal objective for `tau ≥ 1`, in terms of the best `r0` entries. -/
lemma card_large_tau_lower {r0 : ℕ} (hr0 : 1 ≤ r0) {τ : ℝ} (hτ : 1 ≤ τ) (y x : Vec (Fin n)) {v : Fin n → ℝ} {s : ℝ} (hv : TopCert r0 y.ofLp v s) :
    (∑ i, (1 - v i) * y i ^ 2) / (2 * τ) ≤ proxObj (XFun.indicator (sparseSet (Fin n) r0)).quadEnvelope τ y x := by
  classical
  have hτ0 : 0 < τ := by linarith
  obtain ⟨z, w, s', hw, hx⟩ : ∃ (z w : Fin n → ℝ) (s' : ℝ), TopCert r0 z w s' ∧ ∀ i, x i = w i * z i := by
    by_cases hs : {i | x i ≠ 0}.ncard ≤ r0
    · exact ⟨_, _, _, topCert_of_sparse hs, fun i => by by_cases hi : x i = 0 <;> simp [hi]⟩
    · rw [ncard_support_eq, not_le] at hs
      obtain ⟨s', h0, h1, -⟩ := card_level hr0 x.ofLp hs
      obtain ⟨c1, c2, -⟩ := topCert_of_level h0 h1
      exact ⟨_, _, _, c1, c2⟩
  obtain ⟨S, hS, hS'⟩ := weights_le_top (v := y.ofLp) hw.w0 hw.w1 hw.sum
  have h1 := hS'.trans (topCert_subset hv S hS)
  unfold proxObj
  rw [(sparse_envelope_value hw hx).2, vec_norm_sq, div_add_div _ _ (by norm_num) (by positivity), div_le_div_iff₀ (by positivity) (by positivity)]
  have h2 : ∑ i, (1 - v i) * y i ^ 2 ≤ ∑ i, (1 - w i) * y i ^ 2 := by
    simp only [sub_mul, Finset.sum_sub_distrib, one_mul]; linarith
  have h3 : ∑ i, (1 - w i) * y i ^ 2 ≤ τ * ((∑ i, w i * z i ^ 2) - ∑ i, x i ^ 2) + ∑ i, (x - y) i ^ 2 := by
    rw [← Finset.sum_sub_distrib, Finset.mul_sum, ← Finset.sum_add_distrib]
    refine Finset.sum_le_sum fun i _ => ?_
    change (1 - w i) * y i ^ 2 ≤ τ * (w i * z i ^ 2 - x i ^ 2) + (x i - y i) ^ 2
    rw [hx]
    have hw0 := hw.w0 i
    have hw1 := hw.w1 i
    have e : τ * (w i * z i ^ 2 - (w i * z i) ^ 2) + (w i * z i - y i) ^ 2 - (1 - w i) * y i ^ 2
        = (τ - 1) * (w i * (1 - w i) * z i ^ 2) + w i * (z i - y i) ^ 2 := by ring
    have h4 : 0 ≤ (τ - 1) * (w i * (1 - w i) * z i ^ 2) :=
      mul_nonneg (by linarith) (mul_nonneg (mul_nonneg hw0 (by linarith)) (sq_nonneg _))
    have h5 : 0 ≤ w i * (z i - y i) ^ 2 := mul_nonneg hw0 (sq_nonneg _)
    linarith
  nlinarith

/-- C84: for `tau ≥ 1` the result is a minimiser, provided that the threshold of `_hardthreshold` separates exactly the `r0` largest magnitudes, or
keeps all non-zero entries, of which there are at most `r0`. -/
theorem C84_card_prox_large_tau_partial (argsort : (Fin n → ℝ) → Equiv.Perm (Fin n)) (θ : ℝ → ℝ) (r0 : ℕ) (hr0 : 1 ≤ r0) (y : Vec (Fin n)) (τ : ℝ)
    (hτ : 1 ≤ τ) (hθ : 0 ≤ θ τ)
    (hy : {i | θ τ < |y i|}.ncard = r0 ∨ ({i | θ τ < |y i|}.ncard ≤ r0 ∧ ∀ i, |y i| ≤ θ τ → y i = 0)) :
    ∃ p, (QuadraticEnvelopeCardIndicator argsort θ r0).prox y τ = .ok p ∧ IsProx (XFun.indicator (sparseSet (Fin n) r0)).quadEnvelope τ y p := by
  classical
  have hτ0 : 0 < τ := by linarith
  have hrun : (QuadraticEnvelopeCardIndicator argsort θ r0).prox y τ = .ok (hardthreshold y (θ τ)) := by
    refine (checkTau_pos hτ0 _).trans ?_
    unfold cardEnvProx
    simp only
    rw [if_pos]
    rw [div_le_one hτ0]; exact hτ
  refine ⟨_, hrun, ?_⟩
  have hp : ∀ i, hardthreshold y (θ τ) i = (if θ τ < |y i| then 1 else 0) * y i := by
    intro i
    simp only [hardthreshold]
    by_cases hi : |y i| ≤ θ τ
    · rw [if_pos hi, if_neg (not_lt.2 hi), zero_mul]
    · rw [if_neg hi, if_pos (not_le.1 hi), one_mul]
  have hcount : ∑ i, (if θ τ < |y i| then (1 : ℝ) else 0) = ({i | θ τ < |y i|}.ncard : ℝ) := by
    have : {i | θ τ < |y i|} = ((Finset.univ.filter fun i => θ τ < |y i| : Finset (Fin n)) : Set (Fin n)) := by ext i; simp
    rw [this, Set.ncard_coe_finset, Finset.card_filter]
    push_cast; rfl
  obtain ⟨s, hv⟩ : ∃ s, TopCert r0 y.ofLp (fun i => if θ τ < |y i| then 1 else 0) s := by
    rcases hy with hy | ⟨hy, hy0⟩
    · refine ⟨θ τ, fun i => by split_ifs <;> norm_num, fun i => by split_ifs <;> norm_num, by rw [hcount, hy], hθ, by rw [hcount, hy]; ring, ?_, ?_⟩
      · intro i hi
        by_contra hc
        rw [if_pos (not_le.1 hc)] at hi
        exact absurd hi (lt_irrefl _)
      · intro i hi
        by_contra hc
        rw [if_neg (fun h => hc h.le)] at hi
        exact absurd hi (lt_irrefl _)
    · refine ⟨0, fun i => by split_ifs <;> norm_num, fun i => by split_ifs <;> norm_num, by rw [hcount]; exact_mod_cast hy, le_rfl, zero_mul _, ?_,
        fun i _ => abs_nonneg _⟩
      intro i hi
      by_cases hc : θ τ < |y i|
      · rw [if_pos hc] at hi; exact absurd hi (lt_irrefl _)
      · have := hy0 i (not_lt.1 hc)
        change |y i| ≤ 0
        rw [this, abs_zero]
  obtain ⟨h1, h2⟩ := sparse_envelope_value hv (x := hardthreshold y (θ τ)) hp
  refine ⟨h1, fun x _ => le_trans (le_of_eq ?_) (card_large_tau_lower hr0 hτ y x hv)⟩
  unfold proxObj
  rw [h2, vec_norm_sq]
  have e1 : ∑ i, (if θ τ < |y i| then (1 : ℝ) else 0) * y i ^ 2 = ∑ i, hardthreshold y (θ τ) i ^ 2 := Finset.sum_congr rfl fun i _ => by
    rw [hp]; split_ifs <;> ring
  have e2 : ∑ i, (hardthreshold y (θ τ) - y) i ^ 2 = ∑ i, (1 - if θ τ < |y i| then (1 : ℝ) else 0) * y i ^ 2 := Finset.sum_congr rfl fun i _ => by
    change (hardthreshold y (θ τ) i - y i) ^ 2 = _
    rw [hp]; split_ifs <;> ring
  rw [e1, sub_self, zero_div, zero_add, e2]

/-- C84 fails for `tau ≥ 1`: a vector with at most `r0` non-zero entries is its own unique proximal point, but entries up to the threshold are set to
zero. -/
theorem C84_card_prox_large_tau_refuted (argsort : (Fin n → ℝ) → Equiv.Perm (Fin n)) (θ : ℝ → ℝ) (r0 : ℕ) (hr0 : 1 ≤ r0) (y : Vec (Fin n)) (τ : ℝ)
    (hτ : 1 ≤ τ) (hy : y ∈ sparseSet (Fin n) r0) (hsmall : ∃ i, y i ≠ 0 ∧ |y i| ≤ θ τ) :
    IsUniqueProx (XFun.indicator (sparseSet (Fin n) r0)).quadEnvelope τ y y ∧
      ∃ p, (QuadraticEnvelopeCardIndicator argsort θ r0).prox y τ = .ok p ∧ ¬ IsProx (XFun.indicator (sparseSet (Fin n) r0)).quadEnvelope τ y p := by
  classical
  have hτ0 : 0 < τ := by linarith
  have hrun : (QuadraticEnvelopeCardIndicator argsort θ r0).prox y τ = .ok (hardthreshold y (θ τ)) := by
    refine (checkTau_pos hτ0 _).trans ?_
    unfold cardEnvProx
    simp only
    rw [if_pos]
    rw [div_le_one hτ0]; exact hτ
  have hy' := hy
  simp only [sparseSet, Set.mem_ofPred_eq] at hy'
  have hc := topCert_of_sparse hy'
  obtain ⟨h1, h2⟩ := sparse_envelope_value hc (x := y) (fun i => by by_cases hi : y i = 0 <;> simp [hi])
  have h0 : (XFun.indicator (sparseSet (Fin n) r0)).quadEnvelope.val y = 0 := by
    rw [h2]
    have : ∑ i, (if y i = 0 then (0 : ℝ) else 1) * y i ^ 2 = ∑ i, y i ^ 2 := Finset.sum_congr rfl fun i _ => by
      by_cases hi : y i = 0 <;> simp [hi]
    rw [this, sub_self, zero_div]
  -- the envelope is non-negative
  have hnn : ∀ x : Vec (Fin n), 0 ≤ (XFun.indicator (sparseSet (Fin n) r0)).quadEnvelope.val x := by
    intro x
    obtain ⟨z, w, s', hw, hx⟩ : ∃ (z w : Fin n → ℝ) (s' : ℝ), TopCert r0 z w s' ∧ ∀ i, x i = w i * z i := by
      by_cases hs : {i | x i ≠ 0}.ncard ≤ r0
      · exact ⟨_, _, _, topCert_of_sparse hs, fun i => by by_cases hi : x i = 0 <;> simp [hi]⟩
      · rw [ncard_support_eq, not_le] at hs
        obtain ⟨s', g0, g1, -⟩ := card_level hr0 x.ofLp hs
        obtain ⟨c1, c2, -⟩ := topCert_of_level g0 g1
        exact ⟨_, _, _, c1, c2⟩
    rw [(sparse_envelope_value hw hx).2, ← Finset.sum_sub_distrib]
    refine div_nonneg (Finset.sum_nonneg fun i _ => ?_) (by norm_num)
    rw [hx]
    have e : w i * z i ^ 2 - (w i * z i) ^ 2 = w i * (1 - w i) * z i ^ 2 := by ring
    rw [e]
    exact mul_nonneg (mul_nonneg (hw.w0 i) (by linarith [hw.w1 i])) (sq_nonneg _)
  have hobj : proxObj (XFun.indicator (sparseSet (Fin n) r0)).quadEnvelope τ y y = 0 := by unfold proxObj; rw [h0]; simp
  have hstrict : ∀ q, q ≠ y → 0 < proxObj (XFun.indicator (sparseSet (Fin n) r0)).quadEnvelope τ y q := by
    intro q hq
    unfold proxObj
    have : 0 < ‖q - y‖ := norm_pos_iff.2 (sub_ne_zero.2 hq)
    have := hnn q
    positivity
  have huniq : ∀ q, IsProx (XFun.indicator (sparseSet (Fin n) r0)).quadEnvelope τ y q → q = y := by
    intro q hq
    by_contra hne
    have := hq.2 y h1
    rw [hobj] at this
    exact absurd (hstrict q hne) (not_lt.2 this)
  refine ⟨⟨⟨h1, fun x _ => ?_⟩, huniq⟩, _, hrun, fun hp => ?_⟩
  · rw [hobj]
    unfold proxObj
    have := hnn x
    positivity
  · have he := huniq _ hp
    obtain ⟨i, hi, hi'⟩ := hsmall
    apply hi
    have := congrArg (fun v : Vec (Fin n) => v i) he
    simp only [hardthreshold, if_pos hi'] at this
    exact this.symm

/-- Witness: `y = (1, 0)`, `r0 = 1`, `tau = 1` with the threshold `√(2 tau)`. -/
example : (vmk ![1, 0] : Vec (Fin 2)) ∈ sparseSet (Fin 2) 1 ∧ ∃ i, (vmk ![1, 0] : Vec (Fin 2)) i ≠ 0 ∧ |(vmk ![1, 0] : Vec (Fin 2)) i| ≤ √(2 * 1) := by
  classical
  constructor
  · simp only [sparseSet, Set.mem_ofPred_eq]
    rw [ncard_support_eq]
    have : (Finset.univ.filter fun i : Fin 2 => (vmk ![(1 : ℝ), 0] : Vec (Fin 2)) i ≠ 0) = {0} := by
      ext i; fin_cases i <;> simp
    rw [this]; simp
  · refine ⟨0, by simp, ?_⟩
    simp

/-- C84 fails for `r0 = 0`: for a single entry and `tau < 1` the call raises `UnboundLocalError` whatever the input. -/
theorem C84_card_prox_zero_refuted (argsort : (Fin 1 → ℝ) → Equiv.Perm (Fin 1)) (θ : ℝ → ℝ) (y : Vec (Fin 1)) (τ : ℝ) (hτ : 0 < τ) (hτ1 : τ < 1) :
    (QuadraticEnvelopeCardIndicator argsort θ 0).prox y τ = .error .unboundLocalError := by
  have hρ : 1 < 1 / τ := by rw [lt_div_iff₀ hτ]; linarith
  refine (checkTau_pos hτ _).trans ?_
  unfold cardEnvProx
  simp only [if_neg (not_le.2 hρ)]
  rw [dif_neg (by omega), if_neg]
  · have h1 : ∀ (h : (if True then 1 - 1 else 0 - 1) < 1), (⟨if True then 1 - 1 else 0 - 1, h⟩ : Fin 1) = ⟨0, by omega⟩ := fun _ => rfl
    simp only [h1]
    obtain ⟨i, e1, -⟩ := minWhere_ok (n := 1) (p := fun k => cardNew (1 / τ) 0 (fun k => |y (argsort (fun i => -|y i|) k)|) k ≤
      cardNew (1 / τ) 0 (fun k => |y (argsort (fun i => -|y i|) k)|) ⟨0, by omega⟩) ⟨0, le_rfl⟩
    obtain ⟨j, e2, -⟩ := maxWhere_ok (n := 1) (p := fun k => cardNew (1 / τ) 0 (fun k => |y (argsort (fun i => -|y i|) k)|) ⟨0, by omega⟩ ≤
      cardNew (1 / τ) 0 (fun k => |y (argsort (fun i => -|y i|) k)|) k) ⟨0, le_rfl⟩
    simp only [e1, e2, bind, Except.bind]
    have hi : i = 0 := Subsingleton.elim _ _
    have hj : j = 0 := Subsingleton.elim _ _
    subst hi; subst hj
    have : ∀ f : Fin 1 → ℝ, cardSlice f 0 0 = [f 0] := by
      intro f; simp [cardSlice, List.finRange_succ]
    rw [this]
    rfl
  · have h1 : ∀ (h : (if True then 1 - 1 else 0 - 1) < 1), (⟨if True then 1 - 1 else 0 - 1, h⟩ : Fin 1) = ⟨0, by omega⟩ := fun _ => rfl
    rw [h1]
    have h2 := abs_nonneg (y (argsort (fun i => -|y i|) ⟨0, by omega⟩))
    nlinarith

end card

section rank
variable {ι : Type} [Fintype ι] {n c : ℕ}

/-- Adding `½‖· - M‖²` moves the proximal point: `prox_{τ(F + ½‖· - M‖²)}(x) = prox_{F/(1+ρ)}((M + ρ x)/(1+ρ))` with `ρ = 1/τ`. -/
lemma addMisfit_prox {E : Type*} [NormedAddCommGroup E] [InnerProductSpace ℝ E] {F : XFun E} {M x p : E} {τ : ℝ} (hτ : 0 < τ)
    (h : IsUniqueProx F (1 / (1 + 1 / τ)) ((1 / (1 + 1 / τ)) • (M + (1 / τ) • x)) p) : IsUniqueProx (F.addMisfit M) τ x p := by
  set ρ := 1 / τ with hρ
  have hρ0 : 0 < ρ := by positivity
  set y := (1 / (1 + ρ)) • (M + ρ • x) with hy
  have key : ∀ q, proxObj (F.addMisfit M) τ x q = proxObj F (1 / (1 + ρ)) y q + (‖M‖ ^ 2 / 2 + ρ * ‖x‖ ^ 2 / 2 - (1 + ρ) * ‖y‖ ^ 2 / 2) := by
    intro q
    unfold proxObj XFun.addMisfit
    simp only
    have e1 : ‖q - x‖ ^ 2 / (2 * τ) = ρ * ‖q - x‖ ^ 2 / 2 := by rw [hρ]; field_simp
    have e2 : ‖q - y‖ ^ 2 / (2 * (1 / (1 + ρ))) = (1 + ρ) * ‖q - y‖ ^ 2 / 2 := by
      have : (1 + ρ) ≠ 0 := by positivity
      field_simp
    have e3 : (1 + ρ) * ⟪q, y⟫ = ⟪q, M⟫ + ρ * ⟪q, x⟫ := by
      rw [hy, real_inner_smul_right, inner_add_right, real_inner_smul_right]
      have : (1 + ρ) ≠ 0 := by positivity
      field_simp
    rw [e1, e2, norm_sub_sq_real, norm_sub_sq_real, norm_sub_sq_real]
    linarith
  constructor
  · exact ⟨h.1.1, fun q hq => by rw [key, key]; linarith [h.1.2 q hq]⟩
  · intro q hq
    refine h.2 q ⟨hq.1, fun r hr => ?_⟩
    have := hq.2 r hr
    rw [key, key] at this
    linarith

/-- What is assumed of the singular values: they are returned in decreasing order. -/
def SvdSorted (svd : Vec (ι × Fin c) → SVD ι (Fin c) (Fin n)) : Prop := ∀ x, Antitone (svd x).s

lemma rankEnv_run (svd : Vec (ι × Fin c) → SVD ι (Fin c) (Fin n)) (eig : Vec (ι × Fin c) → Fin c → ℝ) (argsort : (Fin n → ℝ) → Equiv.Perm (Fin n))
    (r0 : ℕ) (hr : r0 ≤ n) (M x : Vec (ι × Fin c)) {τ : ℝ} (hτ : 0 < τ) (Y : Vec (ι × Fin c)) (hY : (1 / (1 + 1 / τ)) • (M + (1 / τ) • x) = Y)
    (ind : Equiv.Perm (Fin n)) (hind : argsort (fun k : Fin n => if (k : ℕ) < r0 then (svd Y).s k else (1 + 1 / τ) * (svd Y).s k) = ind) :
    (QuadraticEnvelopeRankL2 svd eig argsort r0 M).prox x τ =
      Except.map (fun found => x + (1 / (1 / τ)) • (M - recon (svd Y).u (rankZ (1 / τ) r0 (svd Y).s found) (svd Y).v))
        (rankLoop (1 / τ) r0 (svd Y).s (rankP (1 / τ) r0 (svd Y).s ind) ind ((List.finRange n).drop 0) (rankA (1 / τ) r0 ind 0)
          (rankB (1 / τ) r0 (svd Y).s ind 0)) := by
  refine (checkTau_pos hτ _).trans ?_
  unfold rankEnvProx
  simp only [hY, hind]
  obtain ⟨h1, h2⟩ := rankStart (ρ := 1 / τ) hr (svd Y).s ind
  rw [h1, h2, List.drop_zero]
  rfl

lemma rankEnv_prox_of_root (hn : n = min (Fintype.card ι) c) (svd : Vec (ι × Fin c) → SVD ι (Fin c) (Fin n)) (hsvd : SvdExact svd)
    (hdec : SvdSorted svd) (r0 : ℕ) (hr : r0 ≤ n) (M x : Vec (ι × Fin c)) {τ : ℝ} (hτ : 0 < τ) (Y : Vec (ι × Fin c))
    (hY : (1 / (1 + 1 / τ)) • (M + (1 / τ) • x) = Y) (found : Option ℝ) (s : ℝ) (hs : 0 ≤ s)
    (hroot : rootFun (1 / τ + 1) (topPos n r0) (svd Y).s s = 0)
    (hz : ∀ k, rankZ (1 / τ) r0 (svd Y).s found k = if k ∈ topPos n r0 then max ((svd Y).s k) s else min ((1 / τ + 1) * (svd Y).s k) s) :
    IsUniqueProx ((XFun.indicator (lowRankSet ι (Fin c) r0)).quadEnvelope.addMisfit M) τ x
      (x + (1 / (1 / τ)) • (M - recon (svd Y).u (rankZ (1 / τ) r0 (svd Y).s found) (svd Y).v)) := by
  have hsv := hsvd Y
  set d := svd Y with hd
  set ρ := 1 / τ with hρ
  have hρ0 : 0 < ρ := by positivity
  apply addMisfit_prox hτ
  rw [← hρ, hY]
  obtain ⟨w, hw, hwz⟩ := topCert_of_root (by linarith : 1 < ρ + 1) hsv.nonneg hs (topPos_dom (hdec Y)) hroot
  rw [card_topPos hr] at hw
  have hzf : (fun k => if k ∈ topPos n r0 then max (d.s k) s else min ((ρ + 1) * d.s k) s) = rankZ ρ r0 d.s found := (funext hz).symm
  rw [hzf] at hw
  have hz0 : ∀ k, 0 ≤ rankZ ρ r0 d.s found k := by
    intro k; rw [hz]; split_ifs
    · exact le_trans hs (le_max_right _ _)
    · exact le_min (mul_nonneg (by linarith) (hsv.nonneg k)) hs
  have hne : 1 + ρ ≠ 0 := by positivity
  have hYe : (1 + ρ) • Y = M + ρ • x := by rw [← hY, smul_smul, mul_one_div_cancel hne, one_smul]
  have hlin : ∀ t : Fin n → ℝ, recon d.u (fun k => ((ρ + 1) * d.s k - t k) / ρ) d.v = (1 / ρ) • ((ρ + 1) • Y - recon d.u t d.v) := by
    intro t
    rw [hsv.eq_recon]
    ext ij
    obtain ⟨i, j⟩ := ij
    simp only [PiLp.smul_apply, PiLp.sub_apply, recon_apply, smul_eq_mul, Finset.mul_sum, ← Finset.sum_sub_distrib]
    refine Finset.sum_congr rfl fun k _ => ?_
    ring
  have hpe : x + (1 / ρ) • (M - recon d.u (rankZ ρ r0 d.s found) d.v) = recon d.u (fun k => w k * rankZ ρ r0 d.s found k) d.v := by
    have h1 : (fun k => w k * rankZ ρ r0 d.s found k) = fun k => ((ρ + 1) * d.s k - rankZ ρ r0 d.s found k) / ρ := by
      funext k
      have := hwz k
      rw [← hz, add_sub_cancel_right] at this
      exact this
    have h2 : x = (1 / ρ) • (ρ • x) := by rw [smul_smul, one_div_mul_cancel hρ0.ne', one_smul]
    rw [h1, hlin, add_comm ρ 1, hYe]
    conv_lhs => rw [h2]
    module
  refine lowRank_envelope_prox (by rw [Fintype.card_fin, Fintype.card_fin]; exact hn) hsv.left hsv.right (by positivity) ?_ hz0 hw hpe ?_
  · rw [div_lt_one (by positivity)]; linarith
  · rw [one_div_one_div, hYe, add_sub_cancel_left, smul_add, smul_smul, mul_one_div_cancel hρ0.ne', one_smul]
    module

/-- C85: `QuadraticEnvelopeRankL2.prox` returns the unique minimiser of `R(Z) + ½‖Z - M‖_F² + ‖Z - X‖_F²/(2 tau)`, where `R` is the quadratic envelope
of the indicator of the matrices of rank at most `r0`, for `r0` at most the number `n` of singular values, if there are three or more; with two singular
values and `r0 = 1` it is assumed that those of `(M + X/tau)/(1 + 1/tau)` satisfy `s₀ < (1 + 1/tau) s₁`, with one that `r0 = 0`. -/
theorem C85_rank_prox_partial (hn : n = min (Fintype.card ι) c) (svd : Vec (ι × Fin c) → SVD ι (Fin c) (Fin n)) (hsvd : SvdExact svd)
    (hdec : SvdSorted svd) (eig : Vec (ι × Fin c) → Fin c → ℝ) (argsort : (Fin n → ℝ) → Equiv.Perm (Fin n)) (hsort : ArgsortExact argsort)
    (r0 : ℕ) (hr : r0 ≤ n) (M x : Vec (ι × Fin c)) (τ : ℝ) (hτ : 0 < τ) (h1 : n = 1 → r0 = 0)
    (h2 : ∀ h : n = 2, r0 = 1 → (svd ((1 / (1 + 1 / τ)) • (M + (1 / τ) • x))).s ⟨0, by omega⟩ <
      (1 + 1 / τ) * (svd ((1 / (1 + 1 / τ)) • (M + (1 / τ) • x))).s ⟨1, by omega⟩) :
    ∃ p, (QuadraticEnvelopeRankL2 svd eig argsort r0 M).prox x τ = .ok p ∧
      IsUniqueProx ((XFun.indicator (lowRankSet ι (Fin c) r0)).quadEnvelope.addMisfit M) τ x p := by
  obtain ⟨Y, hY⟩ : ∃ Y, (1 / (1 + 1 / τ)) • (M + (1 / τ) • x) = Y := ⟨_, rfl⟩
  rw [hY] at h2
  obtain ⟨ind, hind⟩ : ∃ ind, argsort (fun k : Fin n => if (k : ℕ) < r0 then (svd Y).s k else (1 + 1 / τ) * (svd Y).s k) = ind := ⟨_, rfl⟩
  have hρ0 : 0 < 1 / τ := by positivity
  rw [rankEnv_run svd eig argsort r0 hr M x hτ Y hY ind hind]
  have hp : Monotone (rankP (1 / τ) r0 (svd Y).s ind) := by
    rw [← hind]; exact hsort fun k : Fin n => if (k : ℕ) < r0 then (svd Y).s k else (1 + 1 / τ) * (svd Y).s k
  have hs0 := (hsvd Y).nonneg
  have hp0 : ∀ k, 0 ≤ rankP (1 / τ) r0 (svd Y).s ind k := by
    intro k; unfold rankP; split_ifs
    · exact hs0 _
    · exact mul_nonneg (by linarith) (hs0 _)
  rcases Nat.lt_or_ge n 2 with hn2 | hn2
  · -- no singular value, or a single one with r0 = 0
    have hr00 : r0 = 0 := by
      rcases Nat.lt_or_ge n 1 with h | h
      · omega
      · exact h1 (by omega)
    subst hr00
    have hloop : rankLoop (1 / τ) 0 (svd Y).s (rankP (1 / τ) 0 (svd Y).s ind) ind ((List.finRange n).drop 0) (rankA (1 / τ) 0 ind 0)
          (rankB (1 / τ) 0 (svd Y).s ind 0) = .ok none := by
      rcases Nat.eq_zero_or_pos n with h | h
      · subst h; rfl
      · have hn1 : n = 1 := by omega
        subst hn1
        rw [drop_finRange (by omega : 0 < 1), rankLoop_cons ⟨0, by omega⟩, if_pos]
        · rfl
        · have hempty : rankSet 0 ind (0 + 1) = ∅ := by
            ext ii
            rw [mem_rankSet]
            have := (ind.symm ii).2
            simp only [Finset.notMem_empty, iff_false]
            omega
          change rankA (1 / τ) 0 ind (0 + 1) = 0
          rw [rankA, hempty]; simp
    rw [hloop]
    refine ⟨_, rfl, rankEnv_prox_of_root hn svd hsvd hdec 0 hr M x hτ Y hY none (∑ k, (1 / τ + 1) * (svd Y).s k)
      (Finset.sum_nonneg fun k _ => mul_nonneg (by linarith) (hs0 k)) ?_ ?_⟩
    · unfold rootFun
      have hT : topPos n 0 = ∅ := by ext k; simp [topPos]
      rw [hT, Finset.sum_empty, zero_sub, neg_eq_zero]
      refine Finset.sum_eq_zero fun k _ => ?_
      rw [max_eq_right]
      have : (1 / τ + 1) * (svd Y).s k ≤ ∑ k, (1 / τ + 1) * (svd Y).s k :=
        Finset.single_le_sum (f := fun k => (1 / τ + 1) * (svd Y).s k) (fun k _ => mul_nonneg (by linarith) (hs0 k)) (Finset.mem_univ k)
      linarith
    · intro k
      have : (1 / τ + 1) * (svd Y).s k ≤ ∑ k, (1 / τ + 1) * (svd Y).s k :=
        Finset.single_le_sum (f := fun k => (1 / τ + 1) * (svd Y).s k) (fun k _ => mul_nonneg (by linarith) (hs0 k)) (Finset.mem_univ k)
      have hk : k ∉ topPos n 0 := fun h => absurd (mem_topPos.1 h) (Nat.not_lt_zero _)
      simp only [rankZ]
      rw [if_neg (Nat.not_lt_zero _), if_neg hk, min_eq_left this, add_comm]
  · obtain ⟨k0, hk0, hI, hF0, hF1⟩ := rank_bracket (r0 := r0) hρ0 hp hn2 (fun h h' => h2 h h')
    obtain ⟨s, hloop, hs, hroot⟩ := rankLoop_root hρ0 hp hp0 k0 hk0 hI hF0 hF1 k0 0 (by omega)
    rw [hloop]
    refine ⟨_, rfl, rankEnv_prox_of_root hn svd hsvd hdec r0 hr M x hτ Y hY (some s) s hs hroot fun k => ?_⟩
    simp only [rankZ]
    by_cases hk : k.val < r0
    · rw [if_pos hk, if_pos (mem_topPos.2 hk), max_comm]
    · rw [if_neg hk, if_neg (fun h => hk (mem_topPos.1 h)), min_comm, add_comm]

/-- C85 fails for one singular value and `r0 = 1`: every call raises `IndexError` (the loop reads `p[1]`). -/
theorem C85_rank_prox_one_refuted (svd : Vec (ι × Fin c) → SVD ι (Fin c) (Fin 1)) (eig : Vec (ι × Fin c) → Fin c → ℝ)
    (argsort : (Fin 1 → ℝ) → Equiv.Perm (Fin 1)) (M x : Vec (ι × Fin c)) (τ : ℝ) (hτ : 0 < τ) :
    (QuadraticEnvelopeRankL2 svd eig argsort 1 M).prox x τ = .error .indexError := by
  obtain ⟨Y, hY⟩ : ∃ Y, (1 / (1 + 1 / τ)) • (M + (1 / τ) • x) = Y := ⟨_, rfl⟩
  obtain ⟨ind, hind⟩ : ∃ ind, argsort (fun k : Fin 1 => if (k : ℕ) < 1 then (svd Y).s k else (1 + 1 / τ) * (svd Y).s k) = ind := ⟨_, rfl⟩
  have hρ0 : 0 < 1 / τ := by positivity
  rw [rankEnv_run svd eig argsort 1 le_rfl M x hτ Y hY ind hind, drop_finRange (by omega : 0 < 1), rankLoop_cons ⟨0, by omega⟩]
  have hset : rankSet 1 ind (0 + 1) = {0} := by
    ext ii
    rw [mem_rankSet]
    have := (ind.symm ii).2
    have h0 : ii = 0 := Subsingleton.elim _ _
    subst h0
    simp
  have hA : rankA (1 / τ) 1 ind (0 + 1) = (1 / τ + 1) / (1 / τ) := by
    rw [rankA, hset]
    have hT : topPos 1 1 = {0} := by ext k; have : k = 0 := Subsingleton.elim _ _; subst this; simp [topPos]
    rw [hT]; simp
  have hB : rankB (1 / τ) 1 (svd Y).s ind (0 + 1) = (1 / τ + 1) / (1 / τ) * (svd Y).s 0 := by rw [rankB, hset, Finset.sum_singleton]
  have hA0 : (1 / τ + 1) / (1 / τ) ≠ 0 := by positivity
  change Except.map _ (if rankA (1 / τ) 1 ind (0 + 1) = 0 then _ else if _ ≤ rankB (1 / τ) 1 (svd Y).s ind (0 + 1) / rankA (1 / τ) 1 ind (0 + 1) then _ else _) = _
  rw [hA, if_neg hA0, hB, mul_div_cancel_left₀ _ hA0, if_pos, dif_neg (by simp)]
  · rfl
  · have h0 : ind ⟨0, by omega⟩ = 0 := Subsingleton.elim _ _
    rw [rankP, h0]; simp

/-- C85 fails for two singular values and `r0 = 1` whenever the first dominates, `(1 + 1/tau) s₁ < s₀`: the loop rejects nothing it should accept, but
reads `p[2]`: `IndexError`. -/
theorem C85_rank_prox_two_refuted (svd : Vec (ι × Fin c) → SVD ι (Fin c) (Fin 2)) (eig : Vec (ι × Fin c) → Fin c → ℝ)
    (argsort : (Fin 2 → ℝ) → Equiv.Perm (Fin 2)) (hsort : ArgsortExact argsort) (M x : Vec (ι × Fin c)) (τ : ℝ) (hτ : 0 < τ)
    (hgap : (1 + 1 / τ) * (svd ((1 / (1 + 1 / τ)) • (M + (1 / τ) • x))).s 1 < (svd ((1 / (1 + 1 / τ)) • (M + (1 / τ) • x))).s 0) :
    (QuadraticEnvelopeRankL2 svd eig argsort 1 M).prox x τ = .error .indexError := by
  obtain ⟨Y, hY⟩ : ∃ Y, (1 / (1 + 1 / τ)) • (M + (1 / τ) • x) = Y := ⟨_, rfl⟩
  rw [hY] at hgap
  obtain ⟨ind, hind⟩ : ∃ ind, argsort (fun k : Fin 2 => if (k : ℕ) < 1 then (svd Y).s k else (1 + 1 / τ) * (svd Y).s k) = ind := ⟨_, rfl⟩
  have hρ0 : 0 < 1 / τ := by positivity
  have hp : Monotone (rankP (1 / τ) 1 (svd Y).s ind) := by
    rw [← hind]; exact hsort fun k : Fin 2 => if (k : ℕ) < 1 then (svd Y).s k else (1 + 1 / τ) * (svd Y).s k
  have hi0 : ind 0 = 1 := by
    by_contra hc
    have h0 : ind 0 = 0 := by omega
    have h1 : ind 1 = 1 := by
      have : ind 1 ≠ ind 0 := fun h => by have := ind.injective h; simp at this
      omega
    have := hp (show (0 : Fin 2) ≤ 1 by decide)
    rw [rankP, rankP, h0, h1] at this
    simp at this
    rw [← one_div] at this
    linarith
  have hi1 : ind 1 = 0 := by
    have : ind 1 ≠ ind 0 := fun h => by have := ind.injective h; simp at this
    omega
  have hs0 : ind.symm 0 = 1 := by rw [Equiv.symm_apply_eq, hi1]
  have hs1 : ind.symm 1 = 0 := by rw [Equiv.symm_apply_eq, hi0]
  have hset1 : rankSet 1 ind (0 + 1) = ∅ := by
    ext ii
    rw [mem_rankSet]
    simp only [Finset.notMem_empty, iff_false]
    fin_cases ii
    · simp [hs0]
    · simp [hs1]
  have hset2 : rankSet 1 ind (1 + 1) = {0} := by
    ext ii
    rw [mem_rankSet]
    fin_cases ii
    · simp [hs0]
    · simp [hs1]
  have hA : rankA (1 / τ) 1 ind (1 + 1) = (1 / τ + 1) / (1 / τ) := by
    rw [rankA, hset2]
    have hT : topPos 2 1 = {0} := by ext k; fin_cases k <;> simp [topPos]
    rw [hT]; simp
  have hA0 : (1 / τ + 1) / (1 / τ) ≠ 0 := by positivity
  have hB : rankB (1 / τ) 1 (svd Y).s ind (1 + 1) = (1 / τ + 1) / (1 / τ) * (svd Y).s 0 := by rw [rankB, hset2, Finset.sum_singleton]
  have hA1 : rankA (1 / τ) 1 ind (0 + 1) = 0 := by rw [rankA, hset1]; simp
  rw [rankEnv_run svd eig argsort 1 (by omega) M x hτ Y hY ind hind, drop_finRange (by omega : 0 < 2), rankLoop_cons ⟨0, by omega⟩, if_pos hA1,
    drop_finRange (by omega : 0 + 1 < 2)]
  change Except.map _ (rankLoop (1 / τ) 1 (svd Y).s (rankP (1 / τ) 1 (svd Y).s ind) ind ((⟨1, by omega⟩ : Fin 2) :: (List.finRange 2).drop 2)
    (rankA (1 / τ) 1 ind (⟨1, by omega⟩ : Fin 2).val) (rankB (1 / τ) 1 (svd Y).s ind (⟨1, by omega⟩ : Fin 2).val)) = _
  rw [rankLoop_cons ⟨1, by omega⟩]
  change Except.map _ (if rankA (1 / τ) 1 ind (1 + 1) = 0 then _ else if _ ≤ rankB (1 / τ) 1 (svd Y).s ind (1 + 1) / rankA (1 / τ) 1 ind (1 + 1) then _ else _) = _
  rw [hA, if_neg hA0, hB, mul_div_cancel_left₀ _ hA0, if_pos, dif_neg (by simp)]
  · rfl
  · change rankP (1 / τ) 1 (svd Y).s ind 1 ≤ _
    rw [rankP, hi1]; simp

/-- Sorted exact decompositions exist for every shape. -/
lemma exists_svdSorted (hn : n = min (Fintype.card ι) c) :
    ∃ (svd : Vec (ι × Fin c) → SVD ι (Fin c) (Fin n)) (eig : Vec (ι × Fin c) → Fin c → ℝ), SvdExact svd ∧ SvdSorted svd ∧ ∀ x, IsEigGram x (eig x) := by
  obtain ⟨svd, eig, h1, h2⟩ := exists_svdExact (ι := ι) (κ := Fin c) (ρ := Fin n) (by rw [Fintype.card_fin, Fintype.card_fin]; exact hn)
  refine ⟨fun x => ⟨fun k => (svd x).u (Tuple.sort (fun k => - (svd x).s k) k), sortDesc (svd x).s,
    fun k => (svd x).v (Tuple.sort (fun k => - (svd x).s k) k)⟩, eig, fun x => ⟨?_, ?_, ?_, ?_⟩, fun x => sortDesc_antitone _, h2⟩
  · exact (h1 x).left.comp _ (Equiv.injective _)
  · exact (h1 x).right.comp _ (Equiv.injective _)
  · intro k; exact (h1 x).nonneg _
  · intro i j
    rw [(h1 x).sum i j]
    exact (Equiv.sum_comp (Tuple.sort fun k => - (svd x).s k) fun k => (svd x).u k i * (svd x).s k * (svd x).v k j).symm

/-- The hypotheses of C85 are met: `4 × 3` matrices and `r0 = 1`. -/
example : ∃ (svd : Vec (Fin 4 × Fin 3) → SVD (Fin 4) (Fin 3) (Fin 3)) (eig : Vec (Fin 4 × Fin 3) → Fin 3 → ℝ), ∀ (M x : Vec (Fin 4 × Fin 3)) (τ : ℝ), 0 < τ →
    ∃ p, (QuadraticEnvelopeRankL2 svd eig Tuple.sort 1 M).prox x τ = .ok p ∧
      IsUniqueProx ((XFun.indicator (lowRankSet (Fin 4) (Fin 3) 1)).quadEnvelope.addMisfit M) τ x p := by
  obtain ⟨svd, eig, h1, h2, -⟩ := exists_svdSorted (ι := Fin 4) (n := 3) (c := 3) (by simp)
  exact ⟨svd, eig, fun M x τ hτ => C85_rank_prox_partial (by simp) svd h1 h2 eig Tuple.sort (exists_argsort 3) 1 (by norm_num) M x τ hτ (by norm_num) (by norm_num)⟩

/-- C85 fails for `r0` one larger than the number of singular values: if the smallest one is positive and separated from the next by the factor
`1 + tau`, the result is not the minimiser, which is `(M + X/tau)/(1 + 1/tau)` since every matrix has rank at most `r0`. -/
theorem C85_rank_prox_over_refuted (m : ℕ) (hn : m + 2 = min (Fintype.card ι) c) (svd : Vec (ι × Fin c) → SVD ι (Fin c) (Fin (m + 2)))
    (hsvd : SvdExact svd) (hdec : SvdSorted svd) (eig : Vec (ι × Fin c) → Fin c → ℝ) (argsort : (Fin (m + 2) → ℝ) → Equiv.Perm (Fin (m + 2)))
    (hsort : ArgsortExact argsort) (M x Y : Vec (ι × Fin c)) (τ : ℝ) (hτ : 0 < τ) (hY : (1 / (1 + 1 / τ)) • (M + (1 / τ) • x) = Y)
    (hpos : 0 < (svd Y).s ⟨m + 1, by omega⟩) (hgap : (1 + τ) * (svd Y).s ⟨m + 1, by omega⟩ ≤ (svd Y).s ⟨m, by omega⟩) :
    IsUniqueProx ((XFun.indicator (lowRankSet ι (Fin c) (m + 3))).quadEnvelope.addMisfit M) τ x Y ∧
    ∃ p, (QuadraticEnvelopeRankL2 svd eig argsort (m + 3) M).prox x τ = .ok p ∧ p ≠ Y := by
  have hsv := hsvd Y
  have hd := hdec Y
  have hρ0 : 0 < 1 / τ := by positivity
  have hcard : Fintype.card (Fin (m + 2)) = min (Fintype.card ι) (Fintype.card (Fin c)) := by rw [Fintype.card_fin, Fintype.card_fin]; exact hn
  constructor
  · apply addMisfit_prox hτ
    rw [hY]
    have hcert : TopCert (m + 3) (svd Y).s (fun _ => 1) 0 := by
      refine ⟨fun _ => zero_le_one, fun _ => le_rfl, ?_, le_rfl, zero_mul _, fun i hi => absurd hi (lt_irrefl _), fun i _ => abs_nonneg _⟩
      simp only [Finset.sum_const, Finset.card_univ, Fintype.card_fin, nsmul_eq_mul, mul_one]
      push_cast; linarith
    refine lowRank_envelope_prox hcard hsv.left hsv.right (by positivity) ?_ hsv.nonneg hcert ?_ ?_
    · rw [div_lt_one (by positivity)]; linarith
    · simp only [one_mul]; exact hsv.eq_recon
    · rw [← hsv.eq_recon]; module
  · obtain ⟨ind, hind⟩ : ∃ ind, argsort (fun k : Fin (m + 2) => if (k : ℕ) < m + 3 then (svd Y).s k else (1 + 1 / τ) * (svd Y).s k) = ind := ⟨_, rfl⟩
    have hlt : ∀ k : Fin (m + 2), (k : ℕ) < m + 3 := fun k => by have := k.2; omega
    have hmono : Monotone fun k => (svd Y).s (ind k) := by
      have := hsort (fun k : Fin (m + 2) => if (k : ℕ) < m + 3 then (svd Y).s k else (1 + 1 / τ) * (svd Y).s k)
      rw [hind] at this
      simpa only [if_pos (hlt _)] using this
    have hother : ∀ j : Fin (m + 2), j ≠ ⟨m + 1, by omega⟩ → (svd Y).s ⟨m, by omega⟩ ≤ (svd Y).s j := by
      intro j hj
      refine hd ?_
      rw [Fin.le_def]
      have : j.val ≠ m + 1 := fun h => hj (Fin.ext h)
      have := j.2
      change j.val ≤ m
      omega
    have hi0 : ind 0 = ⟨m + 1, by omega⟩ := by
      by_contra hc
      have h1 := hother _ hc
      have h2 := hmono (Fin.zero_le (ind.symm ⟨m + 1, by omega⟩))
      simp only [Equiv.apply_symm_apply] at h2
      nlinarith
    have hi1 : (svd Y).s ⟨m, by omega⟩ ≤ (svd Y).s (ind 1) := by
      refine hother _ fun hc => ?_
      have := ind.injective (hc.trans hi0.symm)
      simp at this
    set σ := (svd Y).s ⟨m + 1, by omega⟩ with hσ
    have hrun : (QuadraticEnvelopeRankL2 svd eig argsort (m + 3) M).prox x τ =
        .ok (x + (1 / (1 / τ)) • (M - recon (svd Y).u (rankZ (1 / τ) (m + 3) (svd Y).s (some ((1 + τ) * σ))) (svd Y).v)) := by
      refine (checkTau_pos hτ _).trans ?_
      unfold rankEnvProx
      simp only [hY, hind]
      have hb0 : Finset.univ.filter (fun k : Fin (m + 2) => m + 3 ≤ k.val) = ∅ := by
        ext k; have := k.2; simp only [Finset.mem_filter, Finset.mem_univ, true_and, Finset.notMem_empty, iff_false]; omega
      rw [hb0, Finset.sum_empty, mul_zero]
      have hloop : rankLoop (1 / τ) (m + 3) (svd Y).s (fun k => if ((ind k : Fin (m + 2)) : ℕ) < m + 3 then (svd Y).s (ind k) else (1 + 1 / τ) * (svd Y).s (ind k)) ind
          (List.finRange (m + 2)) ((((m + 2 : ℕ) : ℝ) - ((m + 3 : ℕ) : ℝ)) / (1 / τ)) 0 = .ok (some ((1 + τ) * σ)) := by
        rw [List.finRange_succ, rankLoop]
        simp only [if_pos (hlt _)]
        have ha : (((m + 2 : ℕ) : ℝ) - ((m + 3 : ℕ) : ℝ)) / (1 / τ) + (1 / τ + 1) / (1 / τ) = 1 := by
          push_cast; field_simp; ring
        have hb : (0 : ℝ) + (1 / τ + 1) / (1 / τ) * (svd Y).s (ind 0) = (1 + τ) * σ := by
          rw [hi0]; field_simp; ring
        rw [ha, hb, if_neg one_ne_zero, div_one, if_pos, dif_pos (by simp), if_pos]
        · have : (⟨((0 : Fin (m + 2)) : ℕ) + 1, by simp⟩ : Fin (m + 2)) = 1 := by rw [Fin.ext_iff]; simp
          rw [this]
          exact hgap.trans hi1
        · rw [hi0]; nlinarith
      rw [hloop]
      rfl
    refine ⟨_, hrun, fun hc => ?_⟩
    -- the threshold moves the smallest singular value
    have hne : (1 + 1 / τ) ≠ 0 := by positivity
    have hYe : (1 + 1 / τ) • Y = M + (1 / τ) • x := by rw [← hY, smul_smul, mul_one_div_cancel hne, one_smul]
    have hYZ : recon (svd Y).u (rankZ (1 / τ) (m + 3) (svd Y).s (some ((1 + τ) * σ))) (svd Y).v = Y := by
      rw [one_div_one_div] at hc
      have h1 : τ • ((1 + 1 / τ) • Y) = τ • M + x := by rw [hYe, smul_add, smul_smul, mul_one_div_cancel hτ.ne', one_smul]
      have h2 : τ • ((1 + 1 / τ) • Y) = τ • Y + Y := by
        rw [smul_smul, mul_add, mul_one_div_cancel hτ.ne', mul_one, add_smul, one_smul]
      have h3 : τ • recon (svd Y).u (rankZ (1 / τ) (m + 3) (svd Y).s (some ((1 + τ) * σ))) (svd Y).v = τ • Y := by
        rw [smul_sub] at hc
        have h4 : τ • Y + Y = τ • M + x := h2.symm.trans h1
        have h6 : τ • recon (svd Y).u (rankZ (1 / τ) (m + 3) (svd Y).s (some ((1 + τ) * σ))) (svd Y).v = τ • M + x - Y := by
          conv_rhs => rw [← hc]
          abel
        rw [h6, ← h4, add_sub_cancel_right]
      exact smul_right_injective _ hτ.ne' h3
    have hz : ∀ k, rankZ (1 / τ) (m + 3) (svd Y).s (some ((1 + τ) * σ)) k = (svd Y).s k := by
      have h1 : ‖recon (svd Y).u (fun k => rankZ (1 / τ) (m + 3) (svd Y).s (some ((1 + τ) * σ)) k - (svd Y).s k) (svd Y).v‖ ^ 2 = 0 := by
        have : recon (svd Y).u (fun k => rankZ (1 / τ) (m + 3) (svd Y).s (some ((1 + τ) * σ)) k - (svd Y).s k) (svd Y).v
            = recon (svd Y).u (rankZ (1 / τ) (m + 3) (svd Y).s (some ((1 + τ) * σ))) (svd Y).v - recon (svd Y).u (svd Y).s (svd Y).v := by
          ext ij
          obtain ⟨i, j⟩ := ij
          simp only [PiLp.sub_apply, recon_apply, ← Finset.sum_sub_distrib]
          exact Finset.sum_congr rfl fun k _ => by ring
        rw [this, hYZ, ← hsv.eq_recon, sub_self, norm_zero]; norm_num
      rw [norm_recon_sq hsv.left hsv.right, vec_norm_sq] at h1
      intro k
      have := (Finset.sum_eq_zero_iff_of_nonneg fun k _ => sq_nonneg _).1 h1 k (Finset.mem_univ k)
      have h2 := pow_eq_zero_iff (two_ne_zero) |>.1 this
      exact sub_eq_zero.1 h2
    have := hz ⟨m + 1, by omega⟩
    simp only [rankZ] at this
    rw [if_pos (by omega), ← hσ] at this
    have h1 := le_max_left ((1 + τ) * σ) σ
    rw [this] at h1
    nlinarith

open Classical in
/-- The value of the envelope computed from the eigenvalues of `XᵀX`. -/
lemma rank_call_value (hn : n = min (Fintype.card ι) c) (r0 : ℕ) (x : Vec (ι × Fin c)) {lam : Fin c → ℝ} (hlam : IsEigGram x lam)
    (h : 2 ≤ r0 ∨ x ∈ lowRankSet ι (Fin c) r0) :
    x ∈ (XFun.indicator (lowRankSet ι (Fin c) r0)).quadEnvelope.dom ∧
      cardEnvCall r0 (vmk fun k => √(if lam k < 0 then 0 else lam k)) = .ok ((XFun.indicator (lowRankSet ι (Fin c) r0)).quadEnvelope.val x) := by
  have hcard : Fintype.card (Fin n) = min (Fintype.card ι) (Fintype.card (Fin c)) := by rw [Fintype.card_fin, Fintype.card_fin]; exact hn
  obtain ⟨u, t, v, hx⟩ := exists_svd x hcard
  have hsq : (fun k => √(if lam k < 0 then 0 else lam k)) = fun k => √(lam k) := by
    funext k; rw [if_neg (not_lt.2 (eigGram_nonneg hlam k))]
  rw [hsq]
  have habs : ∀ k, |√(lam k)| = √(lam k) := fun k => abs_of_nonneg (Real.sqrt_nonneg _)
  have habs' : ∀ k, |t k| = t k := fun k => abs_of_nonneg (hx.nonneg k)
  have hnnz : (Finset.univ.filter fun k => √(lam k) ≠ 0).card = (Finset.univ.filter fun k => t k ≠ 0).card := by
    have := svd_sum_eig hcard hlam hx (fun s => if s ≠ 0 then 1 else 0) (by simp)
    rw [Finset.card_filter, Finset.card_filter]
    exact_mod_cast this
  unfold cardEnvCall
  by_cases hs : (Finset.univ.filter fun k => t k ≠ 0).card ≤ r0
  · have hsp : {k | t k ≠ 0}.ncard ≤ r0 := by rw [ncard_support_eq]; exact hs
    obtain ⟨h1, h2⟩ := lowRank_envelope_value hcard hx hx.nonneg (topCert_of_sparse hsp) (fun k => by by_cases hk : t k = 0 <;> simp [hk])
    refine ⟨h1, ?_⟩
    rw [if_pos (Or.inr (by simp only; rw [hnnz]; exact hs)), h2]
    have : ∑ i, (if t i = 0 then (0 : ℝ) else 1) * t i ^ 2 = ∑ i, t i ^ 2 := Finset.sum_congr rfl fun i _ => by
      by_cases hi : t i = 0 <;> simp [hi]
    rw [this, sub_self, zero_div]
  · have hr : 2 ≤ r0 := by
      refine h.resolve_right fun hmem => hs ?_
      have := (recon_rank_le (u := u) (t := t) (v := v))
      rw [← ncard_support_eq]
      exact (svd_support_le_rank hx).trans hmem
    rw [not_le] at hs
    have hs' : r0 < (Finset.univ.filter fun k => √(lam k) ≠ 0).card := by rw [hnnz]; exact hs
    have hrc : r0 < c := lt_of_lt_of_le hs' (by simpa using Finset.card_le_univ (Finset.univ.filter fun k => √(lam k) ≠ 0))
    obtain ⟨s, h0, h1, h2⟩ := card_level (by omega : 1 ≤ r0) (fun k => √(lam k)) hs'
    have h1' : ∑ k, min |t k| s = r0 * s := by
      rw [← h1]
      simp only [habs, habs']
      exact (svd_sum_eig hcard hlam hx (fun a => min a s) (by simp [h0.le])).symm
    obtain ⟨c1, c2, c3⟩ := topCert_of_level h0 h1'
    have hz : ∀ k, 0 ≤ (if t k < 0 then (-1 : ℝ) else 1) * max |t k| s := by
      intro k; rw [if_neg (not_lt.2 (hx.nonneg k)), one_mul]; exact h0.le.trans (le_max_right _ _)
    obtain ⟨e1, e2⟩ := lowRank_envelope_value hcard hx hz c1 c2
    refine ⟨e1, ?_⟩
    rw [if_neg (by simp only; rintro (hc | hc) <;> omega), if_neg (by omega), e2, c3]
    simp only
    rw [h2]
    congr 2
    simp only [habs, habs']
    exact svd_sum_eig hcard hlam hx (fun a => a * max (s - a) 0) (by simp)

/-- C85: evaluating `QuadraticEnvelopeRankL2` returns `R(X) + ½‖X - M‖_F`, for `r0 ≥ 2` or matrices of rank at most `r0`.  It is the documented
`R(X) + ½‖X - M‖_F²` exactly if `‖X - M‖_F` is 0 or 1. -/
theorem C85_rank_call_partial (hn : n = min (Fintype.card ι) c) (svd : Vec (ι × Fin c) → SVD ι (Fin c) (Fin n))
    (eig : Vec (ι × Fin c) → Fin c → ℝ) (heig : ∀ x, IsEigGram x (eig x)) (argsort : (Fin n → ℝ) → Equiv.Perm (Fin n)) (r0 : ℕ)
    (M x : Vec (ι × Fin c)) (h : 2 ≤ r0 ∨ x ∈ lowRankSet ι (Fin c) r0) :
    (QuadraticEnvelopeRankL2 svd eig argsort r0 M).call x
        = .ok (.num ((XFun.indicator (lowRankSet ι (Fin c) r0)).quadEnvelope.val x + ‖x - M‖ / 2)) ∧
      (‖x - M‖ = 0 ∨ ‖x - M‖ = 1 → (QuadraticEnvelopeRankL2 svd eig argsort r0 M).call x
        = .ok (.num (((XFun.indicator (lowRankSet ι (Fin c) r0)).quadEnvelope.addMisfit M).val x))) := by
  have key : (QuadraticEnvelopeRankL2 svd eig argsort r0 M).call x
        = .ok (.num ((XFun.indicator (lowRankSet ι (Fin c) r0)).quadEnvelope.val x + ‖x - M‖ / 2)) := by
    simp only [QuadraticEnvelopeRankL2]
    rw [(rank_call_value hn r0 x (heig x) h).2]
    change Except.ok (CallVal.num _) = _
    congr 3
    norm_num
    ring
  refine ⟨key, fun hM => key.trans ?_⟩
  unfold XFun.addMisfit
  rcases hM with hM | hM <;> simp [hM]

/-- C85 fails for the value: whenever `‖X - M‖_F` is neither 0 nor 1, the number returned differs from the documented penalty. -/
theorem C85_rank_call_refuted (hn : n = min (Fintype.card ι) c) (svd : Vec (ι × Fin c) → SVD ι (Fin c) (Fin n))
    (eig : Vec (ι × Fin c) → Fin c → ℝ) (heig : ∀ x, IsEigGram x (eig x)) (argsort : (Fin n → ℝ) → Equiv.Perm (Fin n)) (r0 : ℕ)
    (M x : Vec (ι × Fin c)) (h : 2 ≤ r0 ∨ x ∈ lowRankSet ι (Fin c) r0) (h0 : ‖x - M‖ ≠ 0) (h1 : ‖x - M‖ ≠ 1) :
    (QuadraticEnvelopeRankL2 svd eig argsort r0 M).call x
        ≠ .ok (.num (((XFun.indicator (lowRankSet ι (Fin c) r0)).quadEnvelope.addMisfit M).val x)) := by
  rw [(C85_rank_call_partial hn svd eig heig argsort r0 M x h).1]
  intro hc
  injection hc with hc
  injection hc with hc
  unfold XFun.addMisfit at hc
  simp only at hc
  have : ‖x - M‖ * (‖x - M‖ - 1) = 0 := by nlinarith
  rcases mul_eq_zero.1 this with h | h
  · exact h0 h
  · exact h1 (by linarith)

end rank

end Verif
