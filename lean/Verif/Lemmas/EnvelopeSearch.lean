import Verif.Model.Envelope
import Verif.Lemmas.Envelope
import Verif.Lemmas.NonConvex
import Verif.Lemmas.Closed

/-! Helper lemmas: the scalar equation solved by the quadratic envelope operators and the two searches for its root. -/

open scoped RealInnerProductSpace

namespace Verif

section
variable {J : Type} [Fintype J] [DecidableEq J]

/-- The monotone function of the threshold whose root is searched. -/
noncomputable def rootFun (ρ : ℝ) (T : Finset J) (a : J → ℝ) (s : ℝ) : ℝ :=
  ∑ k ∈ T, ρ * max (s - a k) 0 - ∑ k ∈ Tᶜ, max (ρ * a k - s) 0

lemma rootFun_mono {ρ : ℝ} (hρ : 0 ≤ ρ) (T : Finset J) (a : J → ℝ) : Monotone (rootFun ρ T a) := by
  intro s t hst
  unfold rootFun
  refine sub_le_sub (Finset.sum_le_sum fun k _ => ?_) (Finset.sum_le_sum fun k _ => ?_)
  · exact mul_le_mul_of_nonneg_left (max_le_max (by linarith) le_rfl) hρ
  · exact max_le_max (by linarith) le_rfl

/-- `I` is the set of entries clipped at level `s`. -/
structure ClipSet (ρ : ℝ) (T I : Finset J) (a : J → ℝ) (s : ℝ) : Prop where
  tin : ∀ k ∈ T, k ∈ I → a k ≤ s
  tout : ∀ k ∈ T, k ∉ I → s ≤ a k
  bin : ∀ k ∉ T, k ∈ I → s ≤ ρ * a k
  bout : ∀ k ∉ T, k ∉ I → ρ * a k ≤ s

lemma rootFun_lin {ρ : ℝ} {T I : Finset J} {a : J → ℝ} {s : ℝ} (h : ClipSet ρ T I a s) :
    rootFun ρ T a s = s * (ρ * (T ∩ I).card + (I \ T).card) - ρ * ∑ k ∈ I, a k := by
  have h1 : ∑ k ∈ T, ρ * max (s - a k) 0 = ∑ k ∈ T ∩ I, ρ * (s - a k) := by
    rw [← Finset.sum_subset (Finset.inter_subset_left : T ∩ I ⊆ T)]
    · refine Finset.sum_congr rfl fun k hk => ?_
      rw [Finset.mem_inter] at hk
      rw [max_eq_left (by linarith [h.tin k hk.1 hk.2])]
    · intro k hk hk'
      have := h.tout k hk (fun hi => hk' (Finset.mem_inter.2 ⟨hk, hi⟩))
      rw [max_eq_right (by linarith), mul_zero]
  have h2 : ∑ k ∈ Tᶜ, max (ρ * a k - s) 0 = ∑ k ∈ I \ T, (ρ * a k - s) := by
    rw [← Finset.sum_subset (s₁ := I \ T) (s₂ := Tᶜ)]
    · refine Finset.sum_congr rfl fun k hk => ?_
      rw [Finset.mem_sdiff] at hk
      rw [max_eq_left (by linarith [h.bin k hk.2 hk.1])]
    · intro k hk; rw [Finset.mem_sdiff] at hk; exact Finset.mem_compl.2 hk.2
    · intro k hk hk'
      rw [Finset.mem_compl] at hk
      have := h.bout k hk (fun hi => hk' (Finset.mem_sdiff.2 ⟨hi, hk⟩))
      rw [max_eq_right (by linarith)]
  have h3 : ∑ k ∈ I, a k = ∑ k ∈ T ∩ I, a k + ∑ k ∈ I \ T, a k := by
    rw [← Finset.sum_inter_add_sum_sdiff I T, Finset.inter_comm]
  unfold rootFun
  rw [h1, h2, h3]
  simp only [← Finset.mul_sum, Finset.sum_sub_distrib, Finset.sum_const, nsmul_eq_mul]
  ring

/-- A root gives the certificate of the proximal point. -/
lemma topCert_of_root {ρ : ℝ} (hρ : 1 < ρ) {T : Finset J} {a : J → ℝ} {s : ℝ} (ha : ∀ k, 0 ≤ a k) (hs : 0 ≤ s)
    (hdom : ∀ i ∈ T, ∀ j ∉ T, a j ≤ a i) (hroot : rootFun ρ T a s = 0) :
    ∃ w : J → ℝ, TopCert T.card (fun k => if k ∈ T then max (a k) s else min (ρ * a k) s) w s ∧
      ∀ k, w k * (if k ∈ T then max (a k) s else min (ρ * a k) s) = (ρ * a k - if k ∈ T then max (a k) s else min (ρ * a k) s) / (ρ - 1) := by
  have hρ1 : 0 < ρ - 1 := by linarith
  have hsums : ∑ k ∈ T, ρ * max (s - a k) 0 = ∑ k ∈ Tᶜ, max (ρ * a k - s) 0 := by unfold rootFun at hroot; linarith
  -- clipped entries
  have htop : ∀ i ∈ T, a i < s → ∃ j ∉ T, s < ρ * a j := by
    intro i hi his
    by_contra hc
    push Not at hc
    have h0 : ∑ k ∈ Tᶜ, max (ρ * a k - s) 0 = 0 := Finset.sum_eq_zero fun k hk => by
      rw [max_eq_right]; linarith [hc k (Finset.mem_compl.1 hk)]
    rw [h0] at hsums
    have := (Finset.sum_eq_zero_iff_of_nonneg fun k _ => mul_nonneg (by linarith) (le_max_right _ _)).1 hsums i hi
    rw [max_eq_left (by linarith)] at this
    nlinarith
  have hbot : ∀ j ∉ T, s < ρ * a j → ∃ i ∈ T, a i < s := by
    intro j hj hjs
    by_contra hc
    push Not at hc
    have h0 : ∑ k ∈ T, ρ * max (s - a k) 0 = 0 := Finset.sum_eq_zero fun k hk => by
      rw [max_eq_right, mul_zero]; linarith [hc k hk]
    rw [h0] at hsums
    have := (Finset.sum_eq_zero_iff_of_nonneg fun k _ => le_max_right _ _).1 hsums.symm j (Finset.mem_compl.2 hj)
    rw [max_eq_left (by linarith)] at this
    linarith
  have htop' : ∀ i ∈ T, a i < s → s < ρ * a i := by
    intro i hi his
    obtain ⟨j, hj, hjs⟩ := htop i hi his
    nlinarith [hdom i hi j hj]
  have hbot' : ∀ j ∉ T, s < ρ * a j → a j < s := by
    intro j hj hjs
    obtain ⟨i, hi, his⟩ := hbot j hj hjs
    linarith [hdom i hi j hj]
  have hspos : ∀ i ∈ T, a i < s → 0 < s := fun i _ h => lt_of_le_of_lt (ha i) h
  have hspos' : ∀ j ∉ T, s < ρ * a j → 0 < s := fun j hj h => lt_of_le_of_lt (ha j) (hbot' j hj h)
  let w : J → ℝ := fun k => if k ∈ T then (if a k < s then (ρ * a k - s) / (ρ - 1) / s else 1) else
    (if s < ρ * a k then (ρ * a k - s) / (ρ - 1) / s else 0)
  have hw : ∀ k, w k = if k ∈ T then (if a k < s then (ρ * a k - s) / (ρ - 1) / s else 1) else
    (if s < ρ * a k then (ρ * a k - s) / (ρ - 1) / s else 0) := fun _ => rfl
  -- s * Σ w = s * card T
  have hsw : s * ∑ k, w k = s * T.card := by
    have e1 : ∀ k ∈ T, s * w k = s - ρ * max (s - a k) 0 / (ρ - 1) := by
      intro k hk
      rw [hw, if_pos hk]
      split_ifs with h
      · rw [max_eq_left (by linarith)]
        have := hspos k hk h
        field_simp
        ring
      · rw [max_eq_right (by linarith)]; ring
    have e2 : ∀ k ∈ Tᶜ, s * w k = max (ρ * a k - s) 0 / (ρ - 1) := by
      intro k hk
      rw [Finset.mem_compl] at hk
      rw [hw, if_neg hk]
      split_ifs with h
      · rw [max_eq_left (by linarith)]
        have := hspos' k hk h
        field_simp
      · rw [max_eq_right (by linarith)]; ring
    rw [Finset.mul_sum, ← Finset.sum_add_sum_compl T, Finset.sum_congr rfl e1, Finset.sum_congr rfl e2, Finset.sum_sub_distrib,
      ← Finset.sum_div, ← Finset.sum_div, hsums, Finset.sum_const, nsmul_eq_mul]
    ring
  refine ⟨w, ⟨?_, ?_, ?_, hs, ?_, ?_, ?_⟩, ?_⟩
  · intro k
    rw [hw]
    split_ifs with h1 h2 h2
    · have := hspos k h1 h2
      have := htop' k h1 h2
      apply div_nonneg (div_nonneg _ hρ1.le) hs
      linarith
    · exact zero_le_one
    · exact div_nonneg (div_nonneg (by linarith) hρ1.le) hs
    · exact le_rfl
  · intro k
    rw [hw]
    split_ifs with h1 h2 h2
    · have h3 := hspos k h1 h2
      rw [div_div, div_le_one (by positivity)]
      nlinarith
    · exact le_rfl
    · have h3 := hspos' k h1 h2
      have := hbot' k h1 h2
      rw [div_div, div_le_one (by positivity)]
      nlinarith
    · exact zero_le_one
  · rcases eq_or_lt_of_le hs with h0 | h0
    · have hle : ∀ k, w k ≤ if k ∈ T then 1 else 0 := by
        intro k
        rw [hw]
        by_cases hk : k ∈ T
        · simp only [if_pos hk]
          rw [if_neg (by rw [← h0]; exact not_lt.2 (ha k))]
        · simp only [if_neg hk]
          rw [if_neg]
          intro hc
          have := hspos' k hk hc
          linarith
      refine le_trans (Finset.sum_le_sum fun k _ => hle k) ?_
      simp
    · exact le_of_eq (mul_left_cancel₀ h0.ne' hsw)
  · rw [mul_sub, hsw, sub_self]
  · intro k hk
    rw [hw] at hk
    by_cases h1 : k ∈ T
    · rw [if_pos h1] at hk ⊢
      by_cases h2 : a k < s
      · rw [max_eq_right h2.le, abs_of_nonneg hs]
      · rw [if_neg h2] at hk; exact absurd hk (lt_irrefl _)
    · rw [if_neg h1, abs_of_nonneg (le_min (mul_nonneg (by linarith) (ha k)) hs)]
      exact min_le_right _ _
  · intro k hk
    rw [hw] at hk
    by_cases h1 : k ∈ T
    · rw [if_pos h1]
      exact le_trans (le_max_right _ _) (le_abs_self _)
    · rw [if_neg h1] at hk ⊢
      by_cases h2 : s < ρ * a k
      · rw [min_eq_right h2.le]; exact le_abs_self _
      · rw [if_neg h2] at hk; exact absurd hk (lt_irrefl _)
  · intro k
    rw [hw]
    by_cases h1 : k ∈ T
    · simp only [if_pos h1]
      by_cases h2 : a k < s
      · have := hspos k h1 h2
        rw [if_pos h2, max_eq_right h2.le]
        field_simp
      · rw [if_neg h2, max_eq_left (not_lt.1 h2)]
        field_simp
    · simp only [if_neg h1]
      by_cases h2 : s < ρ * a k
      · have := hspos' k h1 h2
        rw [if_pos h2, min_eq_right h2.le]
        field_simp
      · rw [if_neg h2, min_eq_left (not_lt.1 h2)]
        ring

/-- A clipped magnitude of a zero entry is zero. -/
lemma clip_zero_of_root {ρ : ℝ} (hρ : 1 < ρ) {T : Finset J} {a : J → ℝ} {s : ℝ} (ha : ∀ k, 0 ≤ a k) (hs : 0 ≤ s)
    (hdom : ∀ i ∈ T, ∀ j ∉ T, a j ≤ a i) (hroot : rootFun ρ T a s = 0) (k : J) (hk : a k = 0) :
    (if k ∈ T then max (a k) s else min (ρ * a k) s) = 0 := by
  obtain ⟨w, hw, h⟩ := topCert_of_root hρ ha hs hdom hroot
  have h1 := h k
  set z := if k ∈ T then max (a k) s else min (ρ * a k) s with hz
  have hz0 : 0 ≤ z := by
    rw [hz]; split_ifs
    · exact le_trans hs (le_max_right _ _)
    · exact le_min (mul_nonneg (by linarith) (ha k)) hs
  rw [hk, mul_zero, zero_sub] at h1
  have h2 : 0 ≤ w k * z := mul_nonneg (hw.w0 k) hz0
  rw [h1] at h2
  have : 0 ≤ -z := by
    by_contra hc
    push Not at hc
    have := div_neg_of_neg_of_pos hc (by linarith : (0 : ℝ) < ρ - 1)
    linarith
  linarith

end

/-! ### The search of `QuadraticEnvelopeCardIndicator` -/

section
variable {n : ℕ}

lemma minWhere_ok {p : Fin n → Prop} (h : ∃ k, p k) : ∃ i, minWhere p = .ok i ∧ p i ∧ ∀ k, p k → i ≤ k := by
  classical
  obtain ⟨k, hk⟩ := h
  have hne : (Finset.univ.filter p).Nonempty := ⟨k, by simp [hk]⟩
  refine ⟨(Finset.univ.filter p).min' hne, ?_, ?_, ?_⟩
  · unfold minWhere; rw [dif_pos hne]
  · have := Finset.min'_mem _ hne; simpa using this
  · intro j hj; exact Finset.min'_le _ _ (by simp [hj])

lemma maxWhere_ok {p : Fin n → Prop} (h : ∃ k, p k) : ∃ i, maxWhere p = .ok i ∧ p i ∧ ∀ k, p k → k ≤ i := by
  classical
  obtain ⟨k, hk⟩ := h
  have hne : (Finset.univ.filter p).Nonempty := ⟨k, by simp [hk]⟩
  refine ⟨(Finset.univ.filter p).max' hne, ?_, ?_, ?_⟩
  · unfold maxWhere; rw [dif_pos hne]
  · have := Finset.max'_mem _ hne; simpa using this
  · intro j hj; exact Finset.le_max' _ _ (by simp [hj])

/-- The first `r0` positions. -/
def topPos (n r0 : ℕ) : Finset (Fin n) := Finset.univ.filter fun k => k.val < r0

lemma mem_topPos {r0 : ℕ} {k : Fin n} : k ∈ topPos n r0 ↔ k.val < r0 := by simp [topPos]

lemma card_topPos {r0 : ℕ} (h : r0 ≤ n) : (topPos n r0).card = r0 := by
  have : topPos n r0 = (Finset.range r0).attachFin (fun m hm => by rw [Finset.mem_range] at hm; omega) := by
    ext k; simp [topPos, Finset.mem_attachFin]
  rw [this, Finset.card_attachFin, Finset.card_range]

lemma card_pos_Icc (i j : Fin n) (r0 : ℕ) (hi : i.val < r0) (hj : r0 ≤ j.val) :
    ((topPos n r0) ∩ Finset.univ.filter (fun k : Fin n => i ≤ k ∧ k ≤ j)).card = r0 - i.val ∧
    ((Finset.univ.filter (fun k : Fin n => i ≤ k ∧ k ≤ j)) \ topPos n r0).card = j.val + 1 - r0 := by
  constructor
  · have : (topPos n r0) ∩ Finset.univ.filter (fun k : Fin n => i ≤ k ∧ k ≤ j)
        = (Finset.Ico i.val r0).attachFin (fun m hm => by rw [Finset.mem_Ico] at hm; have := j.2; omega) := by
      ext k
      simp only [Finset.mem_inter, mem_topPos, Finset.mem_filter, Finset.mem_univ, true_and, Finset.mem_attachFin, Finset.mem_Ico, Fin.le_def]
      omega
    rw [this, Finset.card_attachFin, Nat.card_Ico]
  · have : (Finset.univ.filter (fun k : Fin n => i ≤ k ∧ k ≤ j)) \ topPos n r0
        = (Finset.Ico r0 (j.val + 1)).attachFin (fun m hm => by rw [Finset.mem_Ico] at hm; have := j.2; omega) := by
      ext k
      simp only [Finset.mem_sdiff, mem_topPos, Finset.mem_filter, Finset.mem_univ, true_and, Finset.mem_attachFin, Finset.mem_Ico, Fin.le_def]
      omega
    rw [this, Finset.card_attachFin, Nat.card_Ico]

/-- The loop finds a root, if the candidates bracket one. -/
lemma cardLoop_root {ρ : ℝ} (hρ : 1 < ρ) {r0 : ℕ} {a : Fin n → ℝ} (ha : Antitone a) (cur prev : Fin n) (hcur : cur.val = r0)
    (hprev : prev.val + 1 = r0) :
    ∀ (zs : List ℝ) (z1 : ℝ), zs ≠ [] → (z1 :: zs).Pairwise (fun a b => b ≤ a) → z1 ≤ cardNew ρ r0 a cur →
      (∀ v ∈ zs, cardNew ρ r0 a prev ≤ v) →
      (∀ k, z1 ≤ cardNew ρ r0 a k ∨ cardNew ρ r0 a k ∈ zs ∨ ∀ v ∈ zs, cardNew ρ r0 a k ≤ v) →
      0 ≤ rootFun ρ (topPos n r0) a z1 → (∃ v ∈ zs, rootFun ρ (topPos n r0) a v ≤ 0) →
      ∃ s, cardLoop ρ r0 a (cardNew ρ r0 a) z1 zs = .ok (some s) ∧ rootFun ρ (topPos n r0) a s = 0 ∧ ∃ v ∈ zs, v ≤ s := by
  intro zs
  induction zs with
  | nil => intro z1 h; exact absurd rfl h
  | cons z2 zs ih =>
    intro z1 _ hsort hz1 hz2 hadj hpos hneg
    set rnew := cardNew ρ r0 a with hrnew
    set T := topPos n r0 with hT
    have hle : z2 ≤ z1 := by
      rw [List.pairwise_cons] at hsort; exact hsort.1 z2 (by simp)
    have hsort' : (z2 :: zs).Pairwise (fun a b => b ≤ a) := (List.pairwise_cons.1 hsort).2
    have hzs : ∀ v ∈ z2 :: zs, v ≤ z2 := by
      intro v hv
      rcases List.mem_cons.1 hv with h | h
      · exact h.le
      · exact (List.pairwise_cons.1 hsort').1 v h
    have hdich : ∀ k, z1 ≤ rnew k ∨ rnew k ≤ z2 := by
      intro k
      rcases hadj k with h | h | h
      · exact Or.inl h
      · exact Or.inr (hzs _ h)
      · exact Or.inr (h z2 (by simp))
    set mid := (z1 + z2) / 2 with hmid
    have hm1 : mid ≤ z1 := by rw [hmid]; linarith
    have hm2 : z2 ≤ mid := by rw [hmid]; linarith
    obtain ⟨i1, e1, hi1, hi1'⟩ := minWhere_ok (p := fun k => rnew k ≤ mid) ⟨prev, (hz2 z2 (by simp)).trans hm2⟩
    obtain ⟨i2, e2, hi2, hi2'⟩ := maxWhere_ok (p := fun k => mid ≤ rnew k) ⟨cur, hm1.trans hz1⟩
    have hi1r : i1.val < r0 := by
      have := hi1' prev ((hz2 z2 (by simp)).trans hm2)
      rw [Fin.le_def] at this; omega
    have hi2r : r0 ≤ i2.val := by
      have := hi2' cur (hm1.trans hz1)
      rw [Fin.le_def] at this; omega
    set I := Finset.univ.filter (fun k : Fin n => i1 ≤ k ∧ k ≤ i2) with hI
    have hrT : ∀ k ∈ T, rnew k = a k := fun k hk => by rw [hrnew, cardNew, if_pos (mem_topPos.1 hk)]
    have hrB : ∀ k ∉ T, rnew k = ρ * a k := fun k hk => by rw [hrnew, cardNew, if_neg (fun h => hk (mem_topPos.2 h))]
    have hclip : ∀ σ, z2 ≤ σ → σ ≤ z1 → ClipSet ρ T I a σ := by
      intro σ h2 h1
      refine ⟨fun k hk hi => ?_, fun k hk hi => ?_, fun k hk hi => ?_, fun k hk hi => ?_⟩
      · -- top, clipped
        rw [hI, Finset.mem_filter] at hi
        have h3 : rnew k ≤ mid := by
          rw [hrT k hk]
          have h4 := ha hi.2.1
          have h5 : rnew i1 = a i1 := hrT i1 (mem_topPos.2 hi1r)
          rw [h5] at hi1
          exact h4.trans hi1
        rw [← hrT k hk]
        rcases hdich k with h6 | h6
        · linarith
        · linarith
      · have hki : k < i1 := by
          by_contra hc
          apply hi
          rw [hI, Finset.mem_filter]
          refine ⟨Finset.mem_univ _, not_lt.1 hc, ?_⟩
          rw [Fin.le_def]
          have := mem_topPos.1 hk
          omega
        have h3 : mid < rnew k := by
          by_contra hc
          exact absurd (hi1' k (not_lt.1 hc)) (not_le.2 hki)
        rw [← hrT k hk]
        rcases hdich k with h6 | h6
        · linarith
        · linarith
      · rw [hI, Finset.mem_filter] at hi
        have h3 : mid ≤ rnew k := by
          rw [hrB k hk]
          have h4 := ha hi.2.2
          have h5 : rnew i2 = ρ * a i2 := hrB i2 (fun h => absurd (mem_topPos.1 h) (not_lt.2 hi2r))
          rw [h5] at hi2
          nlinarith
        rw [← hrB k hk]
        rcases hdich k with h6 | h6
        · linarith
        · linarith
      · have hki : i2 < k := by
          by_contra hc
          apply hi
          rw [hI, Finset.mem_filter]
          refine ⟨Finset.mem_univ _, ?_, not_lt.1 hc⟩
          rw [Fin.le_def]
          have : r0 ≤ k.val := not_lt.1 (fun h => hk (mem_topPos.2 h))
          omega
        have h3 : rnew k < mid := by
          by_contra hc
          exact absurd (hi2' k (not_lt.1 hc)) (not_le.2 hki)
        rw [← hrB k hk]
        rcases hdich k with h6 | h6
        · linarith
        · linarith
    obtain ⟨c1, c2⟩ := card_pos_Icc i1 i2 r0 hi1r hi2r
    have hden : ((r0 : ℝ) - (i1.val : ℝ)) * ρ + ((i2.val : ℝ) + 1 - r0) * 1 = ρ * ((T ∩ I).card : ℝ) + ((I \ T).card : ℝ) := by
      rw [hI, hT, c1, c2, Nat.cast_sub hi1r.le, Nat.cast_sub (by omega)]
      push_cast; ring
    set den := ((r0 : ℝ) - (i1.val : ℝ)) * ρ + ((i2.val : ℝ) + 1 - r0) * 1 with hdendef
    set num := ρ * ∑ k ∈ I, a k with hnum
    have hdpos : 0 < den := by
      rw [hdendef]
      have : (i1.val : ℝ) + 1 ≤ r0 := by exact_mod_cast hi1r
      have : (r0 : ℝ) ≤ i2.val := by exact_mod_cast hi2r
      nlinarith
    have hlin : ∀ σ, z2 ≤ σ → σ ≤ z1 → rootFun ρ T a σ = σ * den - num := by
      intro σ h2 h1
      rw [rootFun_lin (hclip σ h2 h1), hden]
    have hstep : cardLoop ρ r0 a rnew z1 (z2 :: zs) =
        if den ≠ 0 ∧ z2 ≤ num / den ∧ num / den ≤ z1 then .ok (some (num / den)) else cardLoop ρ r0 a rnew z2 zs := by
      rw [cardLoop]
      rw [← hmid]
      simp only [e1, e2, bind, Except.bind]
      rfl
    rw [hstep]
    by_cases hacc : den ≠ 0 ∧ z2 ≤ num / den ∧ num / den ≤ z1
    · rw [if_pos hacc]
      refine ⟨num / den, rfl, ?_, z2, by simp, hacc.2.1⟩
      rw [hlin _ hacc.2.1 hacc.2.2, div_mul_cancel₀ _ hacc.1, sub_self]
    · rw [if_neg hacc]
      have hz2pos : 0 < rootFun ρ T a z2 := by
        by_contra hc
        push Not at hc
        apply hacc
        rw [hlin z2 le_rfl hle] at hc
        rw [hlin z1 hle le_rfl] at hpos
        refine ⟨hdpos.ne', ?_, ?_⟩
        · rw [le_div_iff₀ hdpos]; linarith
        · rw [div_le_iff₀ hdpos]; linarith
      have hneg' : ∃ v ∈ zs, rootFun ρ T a v ≤ 0 := by
        obtain ⟨v, hv, hv0⟩ := hneg
        rcases List.mem_cons.1 hv with h | h
        · rw [h] at hv0; linarith
        · exact ⟨v, h, hv0⟩
      have hne : zs ≠ [] := by rintro rfl; obtain ⟨v, hv, -⟩ := hneg'; simp at hv
      obtain ⟨s, h1, h2, v, hv, h3⟩ := ih z2 hne hsort' (hle.trans hz1) (fun v hv => hz2 v (List.mem_cons_of_mem _ hv)) (by
        intro k
        rcases hadj k with h | h | h
        · exact Or.inl (hle.trans h)
        · rcases List.mem_cons.1 h with h | h
          · exact Or.inl h.ge
          · exact Or.inr (Or.inl h)
        · exact Or.inr (Or.inr fun v hv => h v (List.mem_cons_of_mem _ hv))) hz2pos.le hneg'
      exact ⟨s, h1, h2, v, List.mem_cons_of_mem _ hv, h3⟩


lemma topPos_dom {r0 : ℕ} {a : Fin n → ℝ} (ha : Antitone a) : ∀ i ∈ topPos n r0, ∀ j ∉ topPos n r0, a j ≤ a i := by
  intro i hi j hj
  rw [mem_topPos] at hi hj
  exact ha (by rw [Fin.le_def]; omega)

lemma mem_cardSlice {rnew : Fin n → ℝ} {i j : Fin n} {v : ℝ} : v ∈ cardSlice rnew i j ↔ ∃ k, i ≤ k ∧ k ≤ j ∧ rnew k = v := by
  unfold cardSlice
  rw [List.mem_insertionSort]
  simp [and_assoc]

lemma cardSlice_sorted (rnew : Fin n → ℝ) (i j : Fin n) : (cardSlice rnew i j).Pairwise (fun a b => b ≤ a) := by
  unfold cardSlice
  haveI : Std.Total (fun a b : ℝ => b ≤ a) := ⟨fun a b => le_total b a⟩
  haveI : IsTrans ℝ (fun a b : ℝ => b ≤ a) := ⟨fun a b c h1 h2 => h2.trans h1⟩
  exact List.pairwise_insertionSort _ _

lemma cardSlice_two {rnew : Fin n → ℝ} {i j k l : Fin n} (hk : i ≤ k ∧ k ≤ j) (hl : i ≤ l ∧ l ≤ j) (hne : k ≠ l) :
    2 ≤ (cardSlice rnew i j).length := by
  classical
  unfold cardSlice
  rw [List.length_insertionSort, List.length_map]
  have hsub : ({k, l} : Finset (Fin n)) ⊆ ((List.finRange n).filter fun k => decide (i ≤ k ∧ k ≤ j)).toFinset := by
    intro m hm
    rw [List.mem_toFinset, List.mem_filter]
    refine ⟨List.mem_finRange _, ?_⟩
    rcases Finset.mem_insert.1 hm with h | h
    · rw [h]; simpa using hk
    · rw [Finset.mem_singleton.1 h]; simpa using hl
  have h1 := Finset.card_le_card hsub
  rw [Finset.card_pair hne] at h1
  exact h1.trans (List.toFinset_card_le _)

/-- In the case without gap, the search ends with the root of the threshold equation. -/
lemma cardSearch_root {ρ : ℝ} (hρ : 1 < ρ) {r0 : ℕ} {a : Fin n → ℝ} (ha : Antitone a) (ha0 : ∀ k, 0 ≤ a k) (cur prev : Fin n) (hcur : cur.val = r0)
    (hprev : prev.val + 1 = r0) (hgap : ¬ ρ * a cur < a prev) (y : Vec (Fin n)) (id : Equiv.Perm (Fin n)) :
    ∃ s, 0 ≤ s ∧ rootFun ρ (topPos n r0) a s = 0 ∧ (do
      let istart ← minWhere fun k => cardNew ρ r0 a k ≤ cardNew ρ r0 a cur
      let iend ← maxWhere fun k => cardNew ρ r0 a prev ≤ cardNew ρ r0 a k
      cardSearch ρ r0 y id a (cardNew ρ r0 a) (cardSlice (cardNew ρ r0 a) istart iend)) = .ok (cardOut ρ y id (cardClip r0 (cardNew ρ r0 a) s)) := by
  set rnew := cardNew ρ r0 a with hrnew
  have hrT : ∀ k : Fin n, k.val < r0 → rnew k = a k := fun k hk => by rw [hrnew, cardNew, if_pos hk]
  have hrB : ∀ k : Fin n, r0 ≤ k.val → rnew k = ρ * a k := fun k hk => by rw [hrnew, cardNew, if_neg (not_lt.2 hk)]
  have hc : rnew cur = ρ * a cur := hrB cur hcur.ge
  have hp : rnew prev = a prev := hrT prev (by omega)
  have hpc : rnew prev ≤ rnew cur := by rw [hc, hp]; exact not_lt.1 hgap
  obtain ⟨i1, e1, hi1, hi1'⟩ := minWhere_ok (p := fun k => rnew k ≤ rnew cur) ⟨cur, le_rfl⟩
  obtain ⟨i2, e2, hi2, hi2'⟩ := maxWhere_ok (p := fun k => rnew prev ≤ rnew k) ⟨prev, le_rfl⟩
  have hi1p : i1 ≤ prev := hi1' prev hpc
  have hi2c : cur ≤ i2 := hi2' cur hpc
  have hpcur : prev ≤ cur := by rw [Fin.le_def]; omega
  have hne : prev ≠ cur := by intro h; rw [h] at hprev; omega
  have hprevmem : rnew prev ∈ cardSlice rnew i1 i2 := mem_cardSlice.2 ⟨prev, hi1p, hpcur.trans hi2c, rfl⟩
  have hcurmem : rnew cur ∈ cardSlice rnew i1 i2 := mem_cardSlice.2 ⟨cur, hi1p.trans hpcur, hi2c, rfl⟩
  have hlen := cardSlice_two (rnew := rnew) ⟨hi1p, hpcur.trans hi2c⟩ ⟨hi1p.trans hpcur, hi2c⟩ hne
  have hsorted := cardSlice_sorted rnew i1 i2
  have hi1r : i1.val < r0 := by rw [Fin.le_def] at hi1p; omega
  have hi2r : r0 ≤ i2.val := by rw [Fin.le_def] at hi2c; omega
  have hup : ∀ v ∈ cardSlice rnew i1 i2, v ≤ rnew cur := by
    intro v hv
    obtain ⟨k, hk1, hk2, rfl⟩ := mem_cardSlice.1 hv
    rcases lt_or_ge k.val r0 with h | h
    · rw [hrT k h]
      rw [hrT i1 hi1r] at hi1
      exact (ha hk1).trans hi1
    · rw [hrB k h, hc]
      exact mul_le_mul_of_nonneg_left (ha (by rw [Fin.le_def]; omega)) (by linarith)
  have hlow : ∀ v ∈ cardSlice rnew i1 i2, rnew prev ≤ v := by
    intro v hv
    obtain ⟨k, hk1, hk2, rfl⟩ := mem_cardSlice.1 hv
    rcases lt_or_ge k.val r0 with h | h
    · rw [hrT k h, hp]
      exact ha (by rw [Fin.le_def]; omega)
    · rw [hrB k h]
      rw [hrB i2 hi2r] at hi2
      exact hi2.trans (mul_le_mul_of_nonneg_left (ha hk2) (by linarith))
  have hadj : ∀ k, rnew k ∈ cardSlice rnew i1 i2 ∨ rnew cur ≤ rnew k ∨ rnew k ≤ rnew prev := by
    intro k
    rcases lt_or_ge k i1 with h | h
    · right; left
      by_contra hcon
      exact absurd (hi1' k (not_le.1 hcon).le) (not_le.2 h)
    · rcases lt_or_ge i2 k with h2 | h2
      · right; right
        by_contra hcon
        exact absurd (hi2' k (not_le.1 hcon).le) (not_le.2 h2)
      · left; exact mem_cardSlice.2 ⟨k, h, h2, rfl⟩
  have hFcur : 0 ≤ rootFun ρ (topPos n r0) a (rnew cur) := by
    unfold rootFun
    have h0 : ∑ k ∈ (topPos n r0)ᶜ, max (ρ * a k - rnew cur) 0 = 0 := Finset.sum_eq_zero fun k hk => by
      rw [Finset.mem_compl, mem_topPos] at hk
      rw [max_eq_right]
      rw [hc]
      have : a k ≤ a cur := ha (by rw [Fin.le_def]; omega)
      nlinarith
    rw [h0, sub_zero]
    exact Finset.sum_nonneg fun k _ => mul_nonneg (by linarith) (le_max_right _ _)
  have hFprev : rootFun ρ (topPos n r0) a (rnew prev) ≤ 0 := by
    unfold rootFun
    have h0 : ∑ k ∈ topPos n r0, ρ * max (rnew prev - a k) 0 = 0 := Finset.sum_eq_zero fun k hk => by
      rw [mem_topPos] at hk
      rw [max_eq_right, mul_zero]
      rw [hp]
      have : a prev ≤ a k := ha (by rw [Fin.le_def]; omega)
      linarith
    rw [h0, zero_sub, neg_nonpos]
    exact Finset.sum_nonneg fun k _ => le_max_right _ _
  have hrn0 : 0 ≤ rnew prev := by rw [hp]; exact ha0 _
  simp only [e1, e2, bind, Except.bind]
  generalize cardSlice rnew i1 i2 = L at *
  match L, hlen with
  | z1 :: z2 :: zs, _ =>
    have hz1 : z1 = rnew cur := by
      refine le_antisymm (hup z1 (by simp)) ?_
      rcases List.mem_cons.1 hcurmem with h | h
      · exact h.le
      · exact (List.pairwise_cons.1 hsorted).1 _ h
    obtain ⟨s, h1, h2, v, hv, h3⟩ := cardLoop_root hρ ha cur prev hcur hprev (z2 :: zs) z1 (by simp) hsorted hz1.le
      (fun v hv => hlow v (List.mem_cons_of_mem _ hv)) (by
        intro k
        rcases hadj k with h | h | h
        · rcases List.mem_cons.1 h with h | h
          · left; exact h.ge
          · right; left; exact h
        · left; rw [hz1]; exact h
        · right; right; intro v hv; exact h.trans (hlow v (List.mem_cons_of_mem _ hv))) (by rw [hz1]; exact hFcur) (by
        rcases List.mem_cons.1 hprevmem with h | h
        · refine ⟨z2, by simp, ?_⟩
          have h4 : z2 ≤ z1 := (List.pairwise_cons.1 hsorted).1 z2 (by simp)
          have h5 := hlow z2 (by simp)
          have : z2 = rnew prev := le_antisymm (by rw [h]; exact h4) h5
          rw [this]; exact hFprev
        · exact ⟨_, h, hFprev⟩)
    refine ⟨s, hrn0.trans ((hlow v (List.mem_cons_of_mem _ hv)).trans h3), h2, ?_⟩
    rw [cardSearch, h1]
    rfl

/-- From a root of the threshold equation to the proximal point, undoing the sort and the signs. -/
lemma cardOut_isProx {τ : ℝ} (hτ : 0 < τ) (hτ1 : τ < 1) {r0 : ℕ} (hr : r0 ≤ n) (y : Vec (Fin n)) (id : Equiv.Perm (Fin n)) {s : ℝ} (hs : 0 ≤ s)
    (hanti : Antitone fun k => |y (id k)|) (hroot : rootFun (1 / τ) (topPos n r0) (fun k => |y (id k)|) s = 0) (x : Fin n → ℝ)
    (hx : ∀ k, x k = if k ∈ topPos n r0 then max |y (id k)| s else min (1 / τ * |y (id k)|) s) :
    IsUniqueProx (XFun.indicator (sparseSet (Fin n) r0)).quadEnvelope τ y (cardOut (1 / τ) y id x) := by
  have hρ : 1 < 1 / τ := by rw [lt_div_iff₀ hτ]; linarith
  set ρ := 1 / τ with hρdef
  have ha0 : ∀ k, 0 ≤ |y (id k)| := fun k => abs_nonneg _
  obtain ⟨w, hw, hwx⟩ := topCert_of_root hρ ha0 hs (topPos_dom hanti) hroot
  have hz := clip_zero_of_root hρ ha0 hs (topPos_dom hanti) hroot
  rw [card_topPos hr] at hw
  have hxf : (fun k => if k ∈ topPos n r0 then max |y (id k)| s else min (ρ * |y (id k)|) s) = x := (funext hx).symm
  rw [hxf] at hw
  replace hwx : ∀ k, w k * x k = (ρ * |y (id k)| - x k) / (ρ - 1) := fun k => by rw [hx]; exact hwx k
  replace hz : ∀ k, |y (id k)| = 0 → x k = 0 := fun k hk => by rw [hx]; exact hz k hk
  have hx0 : ∀ k, 0 ≤ x k := by
    intro k; rw [hx]; split_ifs
    · exact le_trans hs (le_max_right _ _)
    · exact le_min (mul_nonneg (by linarith) (ha0 k)) hs
  have habs : ∀ i, |x (id.symm i) * npsign (y i)| = x (id.symm i) := by
    intro i
    by_cases hy : y i = 0
    · have := hz (id.symm i) (by simp [hy])
      rw [this]; simp
    · rw [abs_mul, abs_of_nonneg (hx0 _)]
      have : |npsign (y i)| = 1 := by
        have := npsign_sq hy
        rcases mul_self_eq_one_iff.1 this with h | h <;> simp [h]
      rw [this, mul_one]
  have hcert : TopCert r0 (fun i => x (id.symm i) * npsign (y i)) (fun i => w (id.symm i)) s := by
    have hsum : ∑ i, w (id.symm i) = ∑ k, w k := Equiv.sum_comp id.symm w
    refine ⟨fun i => hw.w0 _, fun i => hw.w1 _, by rw [hsum]; exact hw.sum, hs, by rw [hsum]; exact hw.tight, fun i hi => ?_, fun i hi => ?_⟩
    · have := hw.below _ hi
      rw [abs_of_nonneg (hx0 _)] at this
      rw [habs]; exact this
    · have := hw.above _ hi
      rw [abs_of_nonneg (hx0 _)] at this
      rw [habs]; exact this
  refine sparse_envelope_prox hτ hτ1 hcert (fun i => ?_) (fun i => ?_)
  · have h1 := hwx (id.symm i)
    rw [Equiv.apply_symm_apply] at h1
    have : w (id.symm i) * (x (id.symm i) * npsign (y i)) = (ρ * |y i| - x (id.symm i)) / (ρ - 1) * npsign (y i) := by
      rw [← h1]; ring
    change (ρ * y i - x (id.symm i) * npsign (y i)) / (ρ - 1) = w (id.symm i) * (x (id.symm i) * npsign (y i))
    rw [this]
    have h2 := npsign_mul_abs (y i)
    have h3 : (ρ * |y i| - x (id.symm i)) / (ρ - 1) * npsign (y i) = (ρ * (|y i| * npsign (y i)) - x (id.symm i) * npsign (y i)) / (ρ - 1) := by ring
    rw [h3, h2]
  · change (1 / τ - 1) * ((ρ * y i - x (id.symm i) * npsign (y i)) / (ρ - 1)) + x (id.symm i) * npsign (y i) = 1 / τ * y i
    rw [← hρdef]
    have : ρ - 1 ≠ 0 := by linarith
    field_simp
    ring

/-! ### The value -/

lemma sortDesc_antitone (a : Fin n → ℝ) : Antitone (sortDesc a) := by
  intro i j hij
  have := Tuple.monotone_sort (fun i => - a i) hij
  simp only [Function.comp, neg_le_neg_iff] at this
  exact this

lemma sortDesc_sum (a : Fin n → ℝ) (g : ℝ → ℝ) : ∑ k, g (sortDesc a k) = ∑ i, g (a i) :=
  Equiv.sum_comp (Tuple.sort fun i => - a i) (fun i => g (a i))

lemma cardSums_succ {r0 j : ℕ} (hj : j + 1 < r0) (hr : r0 ≤ n) (a : Fin n → ℝ) :
    ((j : ℝ) + 2) * cardSums r0 a (j + 1) = ((j : ℝ) + 1) * cardSums r0 a j + a ⟨r0 - 2 - j, by omega⟩ := by
  have hset : Finset.univ.filter (fun k : Fin n => r0 - 1 - (j + 1) ≤ k.val)
      = insert ⟨r0 - 2 - j, by omega⟩ (Finset.univ.filter (fun k : Fin n => r0 - 1 - j ≤ k.val)) := by
    ext k
    simp only [Finset.mem_filter, Finset.mem_univ, true_and, Finset.mem_insert, Fin.ext_iff]
    omega
  unfold cardSums
  rw [hset, Finset.sum_insert]
  · push_cast
    have h1 : (j : ℝ) + 1 ≠ 0 := by positivity
    have h2 : (j : ℝ) + 1 + 1 ≠ 0 := by positivity
    field_simp
    ring
  · simp only [Finset.mem_filter, Finset.mem_univ, true_and]
    omega

/-- The level found by the search for `k_star`. -/
lemma cardKStar_level {r0 : ℕ} (h1 : 1 ≤ r0) (hr : r0 < n) {a : Fin n → ℝ} (ha : Antitone a) (ha0 : ∀ k, 0 ≤ a k) (hpos : 0 < a ⟨r0, hr⟩) :
    let k := cardKStar r0 a
    let s := cardSums r0 a k
    0 < s ∧ k < r0 ∧ (∀ i : Fin n, i.val < r0 - k - 1 → s ≤ a i) ∧ (∀ i : Fin n, r0 - k - 1 ≤ i.val → a i ≤ s) ∧
      ∑ i ∈ Finset.univ.filter (fun i : Fin n => r0 - k - 1 ≤ i.val), a i = ((k : ℝ) + 1) * s := by
  classical
  intro k s
  have hk : k < r0 ∧ (∀ j, j < k → j + 1 < r0 → ¬ 0 < cardSums r0 a (j + 1) - cardSums r0 a j) ∧
      (k + 1 < r0 → 0 < cardSums r0 a (k + 1) - cardSums r0 a k) := by
    change (cardKStar r0 a < r0) ∧ (∀ j, j < cardKStar r0 a → _) ∧ (cardKStar r0 a + 1 < r0 → 0 < cardSums r0 a (cardKStar r0 a + 1) - cardSums r0 a (cardKStar r0 a))
    unfold cardKStar
    split_ifs with h
    · have := Nat.find_spec h
      refine ⟨by omega, fun j hj hj2 hc => Nat.find_min h hj ⟨hj2, hc⟩, fun _ => this.2⟩
    · push Not at h
      refine ⟨by omega, fun j _ hj2 => not_lt.2 (h j hj2), fun hc => by omega⟩
  obtain ⟨hk1, hk2, hk3⟩ := hk
  have hsub : r0 - k - 1 = r0 - 1 - k := by omega
  have hsum : ∑ i ∈ Finset.univ.filter (fun i : Fin n => r0 - k - 1 ≤ i.val), a i = ((k : ℝ) + 1) * s := by
    change _ = ((k : ℝ) + 1) * cardSums r0 a k
    unfold cardSums
    rw [hsub]
    have : (k : ℝ) + 1 ≠ 0 := by positivity
    field_simp
  have hspos : 0 < s := by
    have : 0 < ((k : ℝ) + 1) * s := by
      rw [← hsum]
      refine lt_of_lt_of_le hpos (Finset.single_le_sum (f := a) (fun i _ => ha0 i) ?_)
      simp only [Finset.mem_filter, Finset.mem_univ, true_and]
      omega
    exact pos_of_mul_pos_right this (by positivity)
  refine ⟨hspos, hk1, fun i hi => ?_, fun i hi => ?_, hsum⟩
  · have hk4 : k + 1 < r0 := by omega
    have h3 := hk3 hk4
    have h4 := cardSums_succ hk4 hr.le a
    have h5 : cardSums r0 a k < a ⟨r0 - 2 - k, by omega⟩ := by
      have h6 : (0 : ℝ) < (k : ℝ) + 2 := by positivity
      nlinarith
    refine h5.le.trans (ha ?_)
    rw [Fin.le_def]
    change i.val ≤ r0 - 2 - k
    omega
  · have h6 : a ⟨r0 - 1 - k, by omega⟩ ≤ s := by
      rcases Nat.eq_zero_or_pos k with h0 | h0
      · have : s = ((k : ℝ) + 1) * s := by rw [h0]; simp
        rw [this, ← hsum]
        refine Finset.single_le_sum (f := a) (fun i _ => ha0 i) ?_
        simp only [Finset.mem_filter, Finset.mem_univ, true_and]
        omega
      · obtain ⟨j, hj⟩ : ∃ j, k = j + 1 := ⟨k - 1, by omega⟩
        have h3 := hk2 j (by omega) (by omega)
        have h4 := cardSums_succ (by omega : j + 1 < r0) hr.le a
        have h5 : s = cardSums r0 a (j + 1) := by change cardSums r0 a k = _; rw [hj]
        have h7 : (⟨r0 - 1 - k, by omega⟩ : Fin n) = ⟨r0 - 2 - j, by omega⟩ := by rw [Fin.ext_iff]; change r0 - 1 - k = r0 - 2 - j; omega
        rw [h7, h5]
        push Not at h3
        have h6 : (0 : ℝ) < (j : ℝ) + 1 := by positivity
        nlinarith
    refine le_trans (ha ?_) h6
    rw [Fin.le_def]
    change r0 - 1 - k ≤ i.val
    omega

open Classical in
/-- With more than `r0` non-zero entries there is a positive level `s` with `Σ min (|x i|) s = r0 s`; the code computes
`½ Σ |x i| max (s - |x i|) 0`. -/
lemma card_level {r0 : ℕ} (h1 : 1 ≤ r0) (x : Fin n → ℝ) (hx : r0 < (Finset.univ.filter fun i => x i ≠ 0).card) :
    ∃ s, 0 < s ∧ ∑ i, min |x i| s = r0 * s ∧
      0.5 * (((cardKStar r0 (sortDesc fun i => |x i|) : ℝ) + 1) * cardSums r0 (sortDesc fun i => |x i|) (cardKStar r0 (sortDesc fun i => |x i|)) ^ 2
        - ∑ i ∈ Finset.univ.filter (fun i : Fin n => r0 - cardKStar r0 (sortDesc fun i => |x i|) - 1 ≤ i.val), (sortDesc fun i => |x i|) i ^ 2)
      = (∑ i, |x i| * max (s - |x i|) 0) / 2 := by
  have hr : r0 < n := lt_of_lt_of_le hx (by simpa using Finset.card_le_univ (Finset.univ.filter fun i => x i ≠ 0))
  set a := sortDesc fun i => |x i| with ha
  have hanti : Antitone a := sortDesc_antitone _
  have ha0 : ∀ k, 0 ≤ a k := fun k => abs_nonneg _
  have hpos : 0 < a ⟨r0, hr⟩ := by
    by_contra hc
    have h0 : ∀ k : Fin n, r0 ≤ k.val → a k = 0 := fun k hk =>
      le_antisymm ((hanti (show (⟨r0, hr⟩ : Fin n) ≤ k by rw [Fin.le_def]; exact hk)).trans (not_lt.1 hc)) (ha0 k)
    have h2 : ((Finset.univ.filter fun i => x i ≠ 0).card : ℝ) = ∑ k, if a k ≠ 0 then (1 : ℝ) else 0 := by
      rw [ha, sortDesc_sum (fun i => |x i|) (fun t => if t ≠ 0 then (1 : ℝ) else 0), Finset.card_filter]
      push_cast
      simp
    have h3 : ∑ k, (if a k ≠ 0 then (1 : ℝ) else 0) ≤ ∑ k, if k ∈ topPos n r0 then (1 : ℝ) else 0 := by
      refine Finset.sum_le_sum fun k _ => ?_
      by_cases hk : k.val < r0
      · rw [if_pos (mem_topPos.2 hk)]; split_ifs <;> norm_num
      · rw [h0 k (not_lt.1 hk)]; simp; split_ifs <;> norm_num
    rw [← h2] at h3
    simp only [Finset.sum_ite_mem, Finset.univ_inter, Finset.sum_const, nsmul_eq_mul, mul_one, card_topPos hr.le] at h3
    have : (Finset.univ.filter fun i => x i ≠ 0).card ≤ r0 := by exact_mod_cast h3
    omega
  obtain ⟨hs, hk, hup, hlow, hsum⟩ := cardKStar_level h1 hr hanti ha0 hpos
  set k := cardKStar r0 a with hkdef
  set s := cardSums r0 a k with hsdef
  refine ⟨s, hs, ?_, ?_⟩
  · have e1 : ∑ i, min |x i| s = ∑ i, min (a i) s := (sortDesc_sum (fun i => |x i|) (fun t => min t s)).symm
    rw [e1, ← Finset.sum_filter_add_sum_filter_not Finset.univ (fun i : Fin n => r0 - k - 1 ≤ i.val)]
    have e2 : ∑ i ∈ Finset.univ.filter (fun i : Fin n => r0 - k - 1 ≤ i.val), min (a i) s = ((k : ℝ) + 1) * s := by
      rw [← hsum]
      refine Finset.sum_congr rfl fun i hi => ?_
      rw [Finset.mem_filter] at hi
      exact min_eq_left (hlow i hi.2)
    have e3 : ∑ i ∈ Finset.univ.filter (fun i : Fin n => ¬ r0 - k - 1 ≤ i.val), min (a i) s = ((r0 : ℝ) - k - 1) * s := by
      have : Finset.univ.filter (fun i : Fin n => ¬ r0 - k - 1 ≤ i.val) = topPos n (r0 - k - 1) := by ext i; simp only [topPos, Finset.mem_filter, Finset.mem_univ, true_and, not_le]
      rw [this, Finset.sum_congr rfl fun i hi => min_eq_right (hup i (mem_topPos.1 hi)), Finset.sum_const, card_topPos (by omega), nsmul_eq_mul,
        Nat.cast_sub (by omega), Nat.cast_sub hk.le]
      simp
    rw [e2, e3]; ring
  · have e1 : ∑ i, |x i| * max (s - |x i|) 0 = ∑ i, a i * max (s - a i) 0 := (sortDesc_sum (fun i => |x i|) (fun t => t * max (s - t) 0)).symm
    rw [e1, ← Finset.sum_filter_add_sum_filter_not Finset.univ (fun i : Fin n => r0 - k - 1 ≤ i.val)]
    have e2 : ∑ i ∈ Finset.univ.filter (fun i : Fin n => ¬ r0 - k - 1 ≤ i.val), a i * max (s - a i) 0 = 0 := Finset.sum_eq_zero fun i hi => by
      rw [Finset.mem_filter] at hi
      have := hup i (by omega)
      rw [max_eq_right (by linarith), mul_zero]
    have e3 : ∑ i ∈ Finset.univ.filter (fun i : Fin n => r0 - k - 1 ≤ i.val), a i * max (s - a i) 0
        = s * (((k : ℝ) + 1) * s) - ∑ i ∈ Finset.univ.filter (fun i : Fin n => r0 - k - 1 ≤ i.val), a i ^ 2 := by
      rw [← hsum, Finset.mul_sum, ← Finset.sum_sub_distrib]
      refine Finset.sum_congr rfl fun i hi => ?_
      rw [Finset.mem_filter] at hi
      have := hlow i hi.2
      rw [max_eq_left (by linarith)]; ring
    rw [e2, e3]
    norm_num
    ring

/-- The certificate given by a level. -/
lemma topCert_of_level {J : Type} [Fintype J] {r : ℕ} {x : J → ℝ} {s : ℝ} (hs : 0 < s) (h : ∑ i, min |x i| s = r * s) :
    TopCert r (fun i => (if x i < 0 then -1 else 1) * max |x i| s) (fun i => min |x i| s / s) s ∧
      (∀ i, x i = min |x i| s / s * ((if x i < 0 then -1 else 1) * max |x i| s)) ∧
      ((∑ i, min |x i| s / s * ((if x i < 0 then -1 else 1) * max |x i| s) ^ 2) - ∑ i, x i ^ 2) / 2 = (∑ i, |x i| * max (s - |x i|) 0) / 2 := by
  have hsign : ∀ i, (if x i < 0 then (-1 : ℝ) else 1) * |x i| = x i := by
    intro i; split_ifs with hi
    · rw [abs_of_neg hi]; ring
    · rw [abs_of_nonneg (not_lt.1 hi)]; ring
  have hsq : ∀ i, (if x i < 0 then (-1 : ℝ) else 1) ^ 2 = 1 := by intro i; split_ifs <;> norm_num
  have habs : ∀ i, |(if x i < 0 then (-1 : ℝ) else 1) * max |x i| s| = max |x i| s := by
    intro i
    rw [abs_mul, abs_of_nonneg (le_trans hs.le (le_max_right _ _))]
    split_ifs <;> simp
  have hmm : ∀ i, min |x i| s * max |x i| s = |x i| * s := fun i => min_mul_max _ _
  have hsum : ∑ i, min |x i| s / s = r := by rw [← Finset.sum_div, h]; field_simp
  refine ⟨⟨fun i => div_nonneg (le_min (abs_nonneg _) hs.le) hs.le, fun i => ?_, hsum.le, hs.le, by rw [hsum]; ring, fun i hi => ?_, fun i _ => ?_⟩,
    fun i => ?_, ?_⟩
  · rw [div_le_one hs]; exact min_le_right _ _
  · rw [div_lt_one hs, min_lt_iff] at hi
    rw [habs]
    rcases hi with hi | hi
    · exact max_le hi.le le_rfl
    · exact absurd hi (lt_irrefl _)
  · rw [habs]; exact le_max_right _ _
  · have : min |x i| s / s * ((if x i < 0 then -1 else 1) * max |x i| s) = (if x i < 0 then -1 else 1) * (min |x i| s * max |x i| s) / s := by ring
    rw [this, hmm, ← mul_assoc, hsign]; field_simp
  · rw [← Finset.sum_sub_distrib]
    congr 1
    refine Finset.sum_congr rfl fun i _ => ?_
    rw [mul_pow, hsq, one_mul]
    have : min |x i| s / s * max |x i| s ^ 2 = (min |x i| s * max |x i| s) / s * max |x i| s := by ring
    rw [this, hmm, mul_div_assoc, div_self hs.ne', mul_one, ← sq_abs (x i)]
    rcases le_total |x i| s with h1 | h1
    · rw [max_eq_right h1, max_eq_left (by linarith)]; ring
    · rw [max_eq_left h1, max_eq_right (by linarith)]; ring

/-- The certificate of a vector with at most `r` non-zero entries. -/
lemma topCert_of_sparse {J : Type} [Fintype J] [DecidableEq J] {r : ℕ} {x : J → ℝ} (h : {i | x i ≠ 0}.ncard ≤ r) :
    TopCert r x (fun i => if x i = 0 then 0 else 1) 0 := by
  classical
  refine ⟨fun i => by split_ifs <;> norm_num, fun i => by split_ifs <;> norm_num, ?_, le_rfl, zero_mul _, fun i hi => ?_, fun i _ => abs_nonneg _⟩
  · rw [ncard_support_eq] at h
    have : ∑ i, (if x i = 0 then (0 : ℝ) else 1) = ((Finset.univ.filter fun i => x i ≠ 0).card : ℝ) := by
      rw [Finset.card_filter]; push_cast
      exact Finset.sum_congr rfl fun i _ => by by_cases hi : x i = 0 <;> simp [hi]
    rw [this]; exact_mod_cast h
  · by_cases h0 : x i = 0
    · simp [h0]
    · rw [if_neg h0] at hi; exact absurd hi (lt_irrefl _)

/-! ### The search of `QuadraticEnvelopeRankL2` -/

/-- The entries clipped after `m` positions of the loop. -/
def rankSet (r0 : ℕ) (ind : Equiv.Perm (Fin n)) (m : ℕ) : Finset (Fin n) :=
  Finset.univ.filter fun ii => (ii.val < r0 ∧ (ind.symm ii).val < m) ∨ (r0 ≤ ii.val ∧ m ≤ (ind.symm ii).val)

lemma mem_rankSet {r0 : ℕ} {ind : Equiv.Perm (Fin n)} {m : ℕ} {ii : Fin n} :
    ii ∈ rankSet r0 ind m ↔ (ii.val < r0 ∧ (ind.symm ii).val < m) ∨ (r0 ≤ ii.val ∧ m ≤ (ind.symm ii).val) := by simp [rankSet]

noncomputable def rankA (ρ : ℝ) (r0 : ℕ) (ind : Equiv.Perm (Fin n)) (m : ℕ) : ℝ :=
  ((ρ + 1) * (topPos n r0 ∩ rankSet r0 ind m).card + (rankSet r0 ind m \ topPos n r0).card) / ρ

noncomputable def rankB (ρ : ℝ) (r0 : ℕ) (yk : Fin n → ℝ) (ind : Equiv.Perm (Fin n)) (m : ℕ) : ℝ := (ρ + 1) / ρ * ∑ ii ∈ rankSet r0 ind m, yk ii

lemma rankSet_succ_top {r0 : ℕ} (ind : Equiv.Perm (Fin n)) (k : Fin n) (h : (ind k).val < r0) :
    ind k ∉ rankSet r0 ind k.val ∧ rankSet r0 ind (k.val + 1) = insert (ind k) (rankSet r0 ind k.val) := by
  constructor
  · rw [mem_rankSet, Equiv.symm_apply_apply]; omega
  · ext ii
    rw [Finset.mem_insert, mem_rankSet, mem_rankSet]
    by_cases he : ii = ind k
    · subst he; rw [Equiv.symm_apply_apply]; simp [h]
    · have : (ind.symm ii).val ≠ k.val := fun hc => he (by rw [← Fin.ext hc, Equiv.apply_symm_apply])
      simp only [he, false_or]; omega

lemma rankSet_succ_bot {r0 : ℕ} (ind : Equiv.Perm (Fin n)) (k : Fin n) (h : r0 ≤ (ind k).val) :
    ind k ∉ rankSet r0 ind (k.val + 1) ∧ rankSet r0 ind k.val = insert (ind k) (rankSet r0 ind (k.val + 1)) := by
  constructor
  · rw [mem_rankSet, Equiv.symm_apply_apply]; omega
  · ext ii
    rw [Finset.mem_insert, mem_rankSet, mem_rankSet]
    by_cases he : ii = ind k
    · subst he; rw [Equiv.symm_apply_apply]; simp [h]
    · have : (ind.symm ii).val ≠ k.val := fun hc => he (by rw [← Fin.ext hc, Equiv.apply_symm_apply])
      simp only [he, false_or]; omega

lemma rankStep {ρ : ℝ} {r0 : ℕ} (yk : Fin n → ℝ) (ind : Equiv.Perm (Fin n)) (k : Fin n) :
    (if (ind k).val < r0 then rankA ρ r0 ind k.val + (ρ + 1) / ρ else rankA ρ r0 ind k.val - 1 / ρ) = rankA ρ r0 ind (k.val + 1) ∧
    (if (ind k).val < r0 then rankB ρ r0 yk ind k.val + (ρ + 1) / ρ * yk (ind k) else rankB ρ r0 yk ind k.val - (ρ + 1) / ρ * yk (ind k))
      = rankB ρ r0 yk ind (k.val + 1) := by
  by_cases h : (ind k).val < r0
  · obtain ⟨h1, h2⟩ := rankSet_succ_top ind k h
    have hT : ind k ∈ topPos n r0 := mem_topPos.2 h
    simp only [if_pos h, rankA, rankB, h2]
    refine ⟨?_, ?_⟩
    · rw [Finset.inter_insert_of_mem hT, Finset.card_insert_of_notMem (fun hc => h1 (Finset.mem_inter.1 hc).2), Finset.insert_sdiff_of_mem _ hT]
      push_cast; ring
    · rw [Finset.sum_insert h1]; ring
  · have h' := not_lt.1 h
    obtain ⟨h1, h2⟩ := rankSet_succ_bot ind k h'
    have hT : ind k ∉ topPos n r0 := fun hc => h (mem_topPos.1 hc)
    simp only [if_neg h, rankA, rankB, h2]
    refine ⟨?_, ?_⟩
    · rw [Finset.inter_insert_of_notMem hT, Finset.insert_sdiff_of_notMem _ hT, Finset.card_insert_of_notMem (fun hc => h1 (Finset.mem_sdiff.1 hc).1)]
      push_cast; ring
    · rw [Finset.sum_insert h1]; ring

lemma rankStart {ρ : ℝ} {r0 : ℕ} (hr : r0 ≤ n) (yk : Fin n → ℝ) (ind : Equiv.Perm (Fin n)) :
    ((n : ℝ) - r0) / ρ = rankA ρ r0 ind 0 ∧
    (ρ + 1) / ρ * ∑ k ∈ Finset.univ.filter (fun k : Fin n => r0 ≤ k.val), yk k = rankB ρ r0 yk ind 0 := by
  have h0 : rankSet r0 ind 0 = Finset.univ.filter (fun k : Fin n => r0 ≤ k.val) := by ext k; simp [rankSet]
  have h1 : topPos n r0 ∩ rankSet r0 ind 0 = ∅ := by
    ext k; simp only [h0, Finset.mem_inter, mem_topPos, Finset.mem_filter, Finset.mem_univ, true_and, Finset.notMem_empty, iff_false]; omega
  have h2 : rankSet r0 ind 0 \ topPos n r0 = (topPos n r0)ᶜ := by
    ext k; simp only [h0, Finset.mem_sdiff, mem_topPos, Finset.mem_filter, Finset.mem_univ, true_and, Finset.mem_compl]; omega
  constructor
  · rw [rankA, h1, h2, Finset.card_compl, card_topPos hr, Fintype.card_fin, Nat.cast_sub hr]; simp
  · rw [rankB, h0]

section
variable {ρ : ℝ} {r0 : ℕ} {yk : Fin n → ℝ} {ind : Equiv.Perm (Fin n)}

/-- Sorted candidates. -/
noncomputable def rankP (ρ : ℝ) (r0 : ℕ) (yk : Fin n → ℝ) (ind : Equiv.Perm (Fin n)) (k : Fin n) : ℝ :=
  if (ind k).val < r0 then yk (ind k) else (1 + ρ) * yk (ind k)

lemma rank_clip (hp : Monotone (rankP ρ r0 yk ind)) (k : Fin n) (hk : k.val + 1 < n) {σ : ℝ} (h1 : rankP ρ r0 yk ind k ≤ σ)
    (h2 : σ ≤ rankP ρ r0 yk ind ⟨k.val + 1, hk⟩) : ClipSet (ρ + 1) (topPos n r0) (rankSet r0 ind (k.val + 1)) yk σ := by
  have hle : ∀ ii : Fin n, (ind.symm ii).val < k.val + 1 → rankP ρ r0 yk ind (ind.symm ii) ≤ σ := fun ii hi =>
    (hp (by rw [Fin.le_def]; omega)).trans h1
  have hge : ∀ ii : Fin n, k.val + 1 ≤ (ind.symm ii).val → σ ≤ rankP ρ r0 yk ind (ind.symm ii) := fun ii hi =>
    h2.trans (hp (by rw [Fin.le_def]; exact hi))
  have hT : ∀ ii : Fin n, ii.val < r0 → rankP ρ r0 yk ind (ind.symm ii) = yk ii := fun ii hi => by
    rw [rankP, Equiv.apply_symm_apply, if_pos hi]
  have hB : ∀ ii : Fin n, r0 ≤ ii.val → rankP ρ r0 yk ind (ind.symm ii) = (ρ + 1) * yk ii := fun ii hi => by
    rw [rankP, Equiv.apply_symm_apply, if_neg (not_lt.2 hi), add_comm]
  refine ⟨fun ii hT' hI => ?_, fun ii hT' hI => ?_, fun ii hT' hI => ?_, fun ii hT' hI => ?_⟩ <;>
    rw [mem_topPos] at hT' <;> rw [mem_rankSet] at hI
  · rw [← hT ii hT']; exact hle ii (by omega)
  · rw [← hT ii hT']; exact hge ii (by omega)
  · rw [← hB ii (by omega)]; exact hge ii (by omega)
  · rw [← hB ii (by omega)]; exact hle ii (by omega)

lemma rank_lin (hρ : 0 < ρ) (hp : Monotone (rankP ρ r0 yk ind)) (k : Fin n) (hk : k.val + 1 < n) {σ : ℝ} (h1 : rankP ρ r0 yk ind k ≤ σ)
    (h2 : σ ≤ rankP ρ r0 yk ind ⟨k.val + 1, hk⟩) :
    rootFun (ρ + 1) (topPos n r0) yk σ = ρ * (σ * rankA ρ r0 ind (k.val + 1) - rankB ρ r0 yk ind (k.val + 1)) := by
  rw [rootFun_lin (rank_clip hp k hk h1 h2), rankA, rankB]
  field_simp

lemma rankA_nonneg (hρ : 0 < ρ) (m : ℕ) : 0 ≤ rankA ρ r0 ind m := by unfold rankA; positivity

lemma rankA_pos (hρ : 0 < ρ) {m : ℕ} (h : (rankSet r0 ind m).Nonempty) : 0 < rankA ρ r0 ind m := by
  unfold rankA
  apply div_pos _ hρ
  have h1 : 0 < (rankSet r0 ind m).card := Finset.card_pos.2 h
  have h2 := Finset.card_inter_add_card_sdiff (rankSet r0 ind m) (topPos n r0)
  rw [Finset.inter_comm] at h2
  have h3 : (1 : ℝ) ≤ (topPos n r0 ∩ rankSet r0 ind m).card + (rankSet r0 ind m \ topPos n r0).card := by exact_mod_cast (by omega)
  have h4 : (0 : ℝ) ≤ (topPos n r0 ∩ rankSet r0 ind m).card := by positivity
  nlinarith

lemma rankLoop_cons (k : Fin n) (ks : List (Fin n)) :
    rankLoop ρ r0 yk (rankP ρ r0 yk ind) ind (k :: ks) (rankA ρ r0 ind k.val) (rankB ρ r0 yk ind k.val) =
      if rankA ρ r0 ind (k.val + 1) = 0 then rankLoop ρ r0 yk (rankP ρ r0 yk ind) ind ks (rankA ρ r0 ind (k.val + 1)) (rankB ρ r0 yk ind (k.val + 1))
      else if rankP ρ r0 yk ind k ≤ rankB ρ r0 yk ind (k.val + 1) / rankA ρ r0 ind (k.val + 1) then
        if h : (k : ℕ) + 1 < n then
          if rankB ρ r0 yk ind (k.val + 1) / rankA ρ r0 ind (k.val + 1) ≤ rankP ρ r0 yk ind ⟨k + 1, h⟩ then
            .ok (some (rankB ρ r0 yk ind (k.val + 1) / rankA ρ r0 ind (k.val + 1)))
          else rankLoop ρ r0 yk (rankP ρ r0 yk ind) ind ks (rankA ρ r0 ind (k.val + 1)) (rankB ρ r0 yk ind (k.val + 1))
        else .error .indexError
      else rankLoop ρ r0 yk (rankP ρ r0 yk ind) ind ks (rankA ρ r0 ind (k.val + 1)) (rankB ρ r0 yk ind (k.val + 1)) := by
  obtain ⟨h1, h2⟩ := rankStep (ρ := ρ) (r0 := r0) yk ind k
  rw [rankLoop]
  simp only [h1, h2]

lemma drop_finRange {m : ℕ} (h : m < n) : (List.finRange n).drop m = ⟨m, h⟩ :: (List.finRange n).drop (m + 1) := by
  rw [List.drop_eq_getElem_cons (by simpa using h)]
  simp

/-- The loop accepts before the last position, if some position brackets the root with a non-zero slope; what it accepts is a root. -/
lemma rankLoop_root (hρ : 0 < ρ) (hp : Monotone (rankP ρ r0 yk ind)) (hp0 : ∀ k, 0 ≤ rankP ρ r0 yk ind k) (k0 : ℕ) (hk0 : k0 + 1 < n)
    (hI : (rankSet r0 ind (k0 + 1)).Nonempty) (hF0 : rootFun (ρ + 1) (topPos n r0) yk (rankP ρ r0 yk ind ⟨k0, by omega⟩) ≤ 0)
    (hF1 : 0 ≤ rootFun (ρ + 1) (topPos n r0) yk (rankP ρ r0 yk ind ⟨k0 + 1, hk0⟩)) :
    ∀ d m, m + d = k0 → ∃ s, rankLoop ρ r0 yk (rankP ρ r0 yk ind) ind ((List.finRange n).drop m) (rankA ρ r0 ind m) (rankB ρ r0 yk ind m) = .ok (some s) ∧
      0 ≤ s ∧ rootFun (ρ + 1) (topPos n r0) yk s = 0 := by
  have hacc : ∀ m (hm : m + 1 < n), rankA ρ r0 ind (m + 1) ≠ 0 →
      rankP ρ r0 yk ind ⟨m, by omega⟩ ≤ rankB ρ r0 yk ind (m + 1) / rankA ρ r0 ind (m + 1) →
      rankB ρ r0 yk ind (m + 1) / rankA ρ r0 ind (m + 1) ≤ rankP ρ r0 yk ind ⟨m + 1, hm⟩ →
      0 ≤ rankB ρ r0 yk ind (m + 1) / rankA ρ r0 ind (m + 1) ∧
        rootFun (ρ + 1) (topPos n r0) yk (rankB ρ r0 yk ind (m + 1) / rankA ρ r0 ind (m + 1)) = 0 := by
    intro m hm h0 h1 h2
    refine ⟨(hp0 _).trans h1, ?_⟩
    rw [rank_lin hρ hp ⟨m, by omega⟩ hm h1 h2, div_mul_cancel₀ _ h0, sub_self, mul_zero]
  intro d
  induction d with
  | zero =>
    intro m hm
    have hm : m = k0 := by omega
    subst hm
    rw [drop_finRange (by omega : m < n), rankLoop_cons ⟨m, by omega⟩]
    have hApos := rankA_pos hρ hI
    rw [if_neg hApos.ne']
    have hle : rankP ρ r0 yk ind ⟨m, by omega⟩ ≤ rankP ρ r0 yk ind ⟨m + 1, hk0⟩ := hp (by rw [Fin.le_def]; simp)
    rw [rank_lin hρ hp ⟨m, by omega⟩ hk0 le_rfl hle] at hF0
    rw [rank_lin hρ hp ⟨m, by omega⟩ hk0 hle le_rfl] at hF1
    have h1 : rankP ρ r0 yk ind ⟨m, by omega⟩ ≤ rankB ρ r0 yk ind (m + 1) / rankA ρ r0 ind (m + 1) := by
      rw [le_div_iff₀ hApos]
      have := nonpos_of_mul_nonpos_right hF0 hρ
      simp only at this
      linarith
    have h2 : rankB ρ r0 yk ind (m + 1) / rankA ρ r0 ind (m + 1) ≤ rankP ρ r0 yk ind ⟨m + 1, hk0⟩ := by
      rw [div_le_iff₀ hApos]
      have := nonneg_of_mul_nonneg_right hF1 hρ
      simp only at this
      linarith
    rw [if_pos h1, dif_pos hk0, if_pos h2]
    exact ⟨_, rfl, hacc m hk0 hApos.ne' h1 h2⟩
  | succ d ih =>
    intro m hm
    have hm1 : m + 1 < n := by omega
    have hrec := ih (m + 1) (by omega)
    rw [drop_finRange (by omega : m < n), rankLoop_cons ⟨m, by omega⟩]
    rw [dif_pos hm1]
    split_ifs with h0 h1 h2
    · exact hrec
    · exact ⟨_, rfl, hacc m hm1 h0 h1 h2⟩
    · exact hrec
    · exact hrec

/-- Some position brackets the root. -/
lemma rank_bracket (hρ : 0 < ρ) (hp : Monotone (rankP ρ r0 yk ind)) (hn : 2 ≤ n)
    (h2 : n = 2 → r0 = 1 → yk ⟨0, by omega⟩ < (1 + ρ) * yk ⟨1, by omega⟩) :
    ∃ k0, ∃ hk0 : k0 + 1 < n, (rankSet r0 ind (k0 + 1)).Nonempty ∧ rootFun (ρ + 1) (topPos n r0) yk (rankP ρ r0 yk ind ⟨k0, by omega⟩) ≤ 0 ∧
      0 ≤ rootFun (ρ + 1) (topPos n r0) yk (rankP ρ r0 yk ind ⟨k0 + 1, hk0⟩) := by
  set F := fun k : Fin n => rootFun (ρ + 1) (topPos n r0) yk (rankP ρ r0 yk ind k) with hF
  have hFm : Monotone F := fun i j hij => rootFun_mono (by linarith) _ _ (hp hij)
  have hT : ∀ ii : Fin n, ii.val < r0 → rankP ρ r0 yk ind (ind.symm ii) = yk ii := fun ii hi => by
    rw [rankP, Equiv.apply_symm_apply, if_pos hi]
  have hB : ∀ ii : Fin n, r0 ≤ ii.val → rankP ρ r0 yk ind (ind.symm ii) = (ρ + 1) * yk ii := fun ii hi => by
    rw [rankP, Equiv.apply_symm_apply, if_neg (not_lt.2 hi), add_comm]
  have hF0 : F ⟨0, by omega⟩ ≤ 0 := by
    change rootFun _ _ _ _ ≤ 0
    unfold rootFun
    have : ∑ k ∈ topPos n r0, (ρ + 1) * max (rankP ρ r0 yk ind ⟨0, by omega⟩ - yk k) 0 = 0 := Finset.sum_eq_zero fun k hk => by
      rw [max_eq_right, mul_zero]
      rw [← hT k (mem_topPos.1 hk), sub_nonpos]
      exact hp (by rw [Fin.le_def]; exact Nat.zero_le _)
    rw [this, zero_sub, neg_nonpos]
    exact Finset.sum_nonneg fun k _ => le_max_right _ _
  have hF1 : 0 ≤ F ⟨n - 1, by omega⟩ := by
    change 0 ≤ rootFun _ _ _ _
    unfold rootFun
    have : ∑ k ∈ (topPos n r0)ᶜ, max ((ρ + 1) * yk k - rankP ρ r0 yk ind ⟨n - 1, by omega⟩) 0 = 0 := Finset.sum_eq_zero fun k hk => by
      rw [Finset.mem_compl, mem_topPos] at hk
      rw [max_eq_right]
      rw [← hB k (not_lt.1 hk), sub_nonpos]
      refine hp ?_
      rw [Fin.le_def]
      have := (ind.symm k).2
      change _ ≤ n - 1
      omega
    rw [this, sub_zero]
    exact Finset.sum_nonneg fun k _ => mul_nonneg (by linarith) (le_max_right _ _)
  -- a first bracket
  have hbr : ∃ k, ∃ hk : k + 1 < n, F ⟨k, by omega⟩ ≤ 0 ∧ 0 ≤ F ⟨k + 1, hk⟩ := by
    have hex : ∃ j, ∃ hj : j < n, 0 ≤ F ⟨j, hj⟩ := ⟨n - 1, by omega, hF1⟩
    classical
    obtain ⟨hj, hj0⟩ := Nat.find_spec hex
    have hmin := fun m (hm : m < Nat.find hex) => Nat.find_min hex hm
    rcases Nat.eq_zero_or_pos (Nat.find hex) with h0 | h0
    · refine ⟨0, by omega, hF0, hj0.trans (hFm ?_)⟩
      rw [Fin.le_def]; change Nat.find hex ≤ 1; omega
    · refine ⟨Nat.find hex - 1, by omega, ?_, ?_⟩
      · have := hmin (Nat.find hex - 1) (by omega)
        push Not at this
        exact (this (by omega)).le
      · have e : (⟨Nat.find hex - 1 + 1, by omega⟩ : Fin n) = ⟨Nat.find hex, hj⟩ := by rw [Fin.ext_iff]; change Nat.find hex - 1 + 1 = Nat.find hex; omega
        rw [e]; exact hj0
  obtain ⟨k, hk, hk0, hk1⟩ := hbr
  by_cases hne : (rankSet r0 ind (k + 1)).Nonempty
  · exact ⟨k, hk, hne, hk0, hk1⟩
  · rw [Finset.not_nonempty_iff_eq_empty] at hne
    have hzero : ∀ σ, rankP ρ r0 yk ind ⟨k, by omega⟩ ≤ σ → σ ≤ rankP ρ r0 yk ind ⟨k + 1, hk⟩ → rootFun (ρ + 1) (topPos n r0) yk σ = 0 := by
      intro σ h1 h2
      rw [rootFun_lin (rank_clip hp ⟨k, by omega⟩ hk h1 h2)]
      change _ * (_ * ((topPos n r0 ∩ rankSet r0 ind (k + 1)).card : ℝ) + ((rankSet r0 ind (k + 1) \ topPos n r0).card : ℝ)) - _ * ∑ i ∈ rankSet r0 ind (k + 1), yk i = 0
      rw [hne]; simp
    have hle : rankP ρ r0 yk ind ⟨k, by omega⟩ ≤ rankP ρ r0 yk ind ⟨k + 1, hk⟩ := hp (by rw [Fin.le_def]; simp)
    have hnotmem : ∀ ii, ii ∉ rankSet r0 ind (k + 1) := by rw [hne]; exact fun ii => Finset.notMem_empty ii
    have hbot : r0 ≤ (ind ⟨k, by omega⟩).val := by
      have := hnotmem (ind ⟨k, by omega⟩)
      rw [mem_rankSet, Equiv.symm_apply_apply] at this
      simp only at this
      omega
    have htop : (ind ⟨k + 1, hk⟩).val < r0 := by
      have := hnotmem (ind ⟨k + 1, hk⟩)
      rw [mem_rankSet, Equiv.symm_apply_apply] at this
      simp only at this
      omega
    rcases Nat.eq_zero_or_pos k with h0 | h0
    · subst h0
      by_cases hn3 : 3 ≤ n
      · refine ⟨1, by omega, ⟨ind ⟨1, by omega⟩, ?_⟩, ?_, ?_⟩
        · rw [mem_rankSet, Equiv.symm_apply_apply]; left; exact ⟨htop, by simp⟩
        · exact (hzero _ hle le_rfl).le
        · refine hk1.trans (hFm ?_)
          rw [Fin.le_def]; simp
      · exfalso
        have hn2 : n = 2 := by omega
        have hi0 := (ind ⟨0, by omega⟩).2
        have hi1 := (ind ⟨1, by omega⟩).2
        have hne' : (ind ⟨0, by omega⟩).val ≠ (ind ⟨1, by omega⟩).val := by
          intro hc
          have := ind.injective (Fin.ext hc)
          rw [Fin.ext_iff] at this
          simp at this
        have htop' : (ind ⟨1, by omega⟩).val < r0 := htop
        have hr1 : (ind ⟨0, by omega⟩).val = 1 := by omega
        have hr0 : (ind ⟨1, by omega⟩).val = 0 := by omega
        have hr : r0 = 1 := by omega
        have h3 := h2 hn2 hr
        have h4 : rankP ρ r0 yk ind ⟨0, by omega⟩ = (1 + ρ) * yk ⟨1, by omega⟩ := by
          rw [rankP, if_neg (not_lt.2 hbot)]
          congr 2
          exact Fin.ext hr1
        have h5 : rankP ρ r0 yk ind ⟨1, by omega⟩ = yk ⟨0, by omega⟩ := by
          rw [rankP, if_pos htop']
          congr 1
          exact Fin.ext hr0
        have h6 : rankP ρ r0 yk ind ⟨0, by omega⟩ ≤ rankP ρ r0 yk ind ⟨1, by omega⟩ := hle
        rw [h4, h5] at h6
        linarith
    · refine ⟨k - 1, by omega, ⟨ind ⟨k, by omega⟩, ?_⟩, ?_, ?_⟩
      · rw [mem_rankSet, Equiv.symm_apply_apply]; right; refine ⟨hbot, ?_⟩; change k - 1 + 1 ≤ k; omega
      · refine le_trans (hFm ?_) hk0
        rw [Fin.le_def]; change k - 1 ≤ k; omega
      · have e : (⟨k - 1 + 1, by omega⟩ : Fin n) = ⟨k, by omega⟩ := by rw [Fin.ext_iff]; change k - 1 + 1 = k; omega
        rw [e]; exact (hzero _ le_rfl hle).ge

end

end

end Verif
