import Verif.Lemmas.Saddle
import Mathlib.Analysis.SpecialFunctions.Exp

/-! # Primal-dual iterations whose steps change -/

open scoped RealInnerProductSpace
open Filter Topology

namespace Verif

section
variable {E F : Type} [NormedAddCommGroup E] [InnerProductSpace ℝ E] [NormedAddCommGroup F] [InnerProductSpace ℝ F]

/-- The graph of the subdifferential is closed when the proximal map exists everywhere. -/
lemma subgrad_limit {Ff : XFun E} (hF : Ff.Convex) {P : E → E} (hP : ∀ x, IsProx Ff 1 x (P x)) {p s : ℕ → E} {p0 s0 : E}
    (h : ∀ n, IsSubgrad Ff (p n) (s n)) (hp : Tendsto p atTop (𝓝 p0)) (hs : Tendsto s atTop (𝓝 s0)) : IsSubgrad Ff p0 s0 := by
  have hfix : ∀ n, P (p n + s n) = p n := fun n => by
    refine IsProx.unique hF one_pos (isProx_of_subgrad one_pos ?_) (hP _)
    rw [add_sub_cancel_left, div_one, one_smul]
    exact h n
  have h1 := ((firm_prox hF one_pos hP).continuous.tendsto (p0 + s0)).comp (hp.add hs)
  have h2 : P (p0 + s0) = p0 := tendsto_nhds_unique (h1.congr fun n => hfix n) hp
  have h3 := subgrad_of_isProx hF one_pos (hP (p0 + s0))
  rwa [h2, add_sub_cancel_left, div_one, one_smul] at h3

variable {A : LinOp E F} {t m K κ : ℝ}

lemma cpGauge_inner (ht : 0 < t) (hm : 0 < m) (hA : ∀ v, ‖A.matvec v‖ ≤ K * ‖v‖) (hκ0 : 0 ≤ κ) (hκ : t * m * K ^ 2 ≤ κ ^ 2)
    (v : E × F) : |2 * ⟪A.matvec v.1, v.2⟫| ≤ κ * (‖v.1‖ ^ 2 / t + ‖v.2‖ ^ 2 / m) := by
  set P := ‖v.1‖ ^ 2 / t with hP
  set Q := ‖v.2‖ ^ 2 / m with hQ
  have hP0 : 0 ≤ P := by positivity
  have hQ0 : 0 ≤ Q := by positivity
  have e1 : ‖v.1‖ ^ 2 = t * P := by rw [hP]; field_simp
  have e2 : ‖v.2‖ ^ 2 = m * Q := by rw [hQ]; field_simp
  refine (pow_le_pow_iff_left₀ (abs_nonneg _) (by positivity) two_ne_zero).1 ?_
  have h1 : |⟪A.matvec v.1, v.2⟫| ≤ ‖A.matvec v.1‖ * ‖v.2‖ := abs_real_inner_le_norm _ _
  have h2 : ‖A.matvec v.1‖ ^ 2 ≤ (K * ‖v.1‖) ^ 2 := pow_le_pow_left₀ (norm_nonneg _) (hA _) 2
  have h3 : |⟪A.matvec v.1, v.2⟫| ^ 2 ≤ (‖A.matvec v.1‖ * ‖v.2‖) ^ 2 := pow_le_pow_left₀ (abs_nonneg _) h1 2
  have h4 : |⟪A.matvec v.1, v.2⟫| ^ 2 ≤ t * m * K ^ 2 * (P * Q) := by
    calc _ ≤ _ := h3
      _ = ‖A.matvec v.1‖ ^ 2 * ‖v.2‖ ^ 2 := by ring
      _ ≤ (K * ‖v.1‖) ^ 2 * ‖v.2‖ ^ 2 := mul_le_mul_of_nonneg_right h2 (sq_nonneg _)
      _ = K ^ 2 * ‖v.1‖ ^ 2 * ‖v.2‖ ^ 2 := by ring
      _ = _ := by rw [e1, e2]; ring
  have h5 : t * m * K ^ 2 * (P * Q) ≤ κ ^ 2 * (P * Q) := mul_le_mul_of_nonneg_right hκ (mul_nonneg hP0 hQ0)
  rw [abs_mul, abs_two, mul_pow]
  nlinarith [mul_nonneg (sq_nonneg κ) (sq_nonneg (P - Q))]

lemma cpGauge_lower (ht : 0 < t) (hm : 0 < m) (hA : ∀ v, ‖A.matvec v‖ ≤ K * ‖v‖) (hκ0 : 0 ≤ κ) (hκ : t * m * K ^ 2 ≤ κ ^ 2)
    (v : E × F) : (1 - κ) * (‖v.1‖ ^ 2 / t + ‖v.2‖ ^ 2 / m) ≤ cpGauge A t m v := by
  have := (abs_le.1 (cpGauge_inner ht hm hA hκ0 hκ v)).2
  unfold cpGauge
  linarith

lemma cpGauge_upper (ht : 0 < t) (hm : 0 < m) (hA : ∀ v, ‖A.matvec v‖ ≤ K * ‖v‖) (hκ0 : 0 ≤ κ) (hκ : t * m * K ^ 2 ≤ κ ^ 2)
    (v : E × F) : cpGauge A t m v ≤ (1 + κ) * (‖v.1‖ ^ 2 / t + ‖v.2‖ ^ 2 / m) := by
  have := (abs_le.1 (cpGauge_inner ht hm hA hκ0 hκ v)).1
  unfold cpGauge
  linarith

/-- The three ways in which the steps can change. -/
def ApdRel (η t m al t' m' al' : ℝ) : Prop :=
  (t' = t ∧ m' = m ∧ al' = al) ∨ (t' = t / (1 - al) ∧ m' = m * (1 - al) ∧ al' = al * η) ∨ (t' = t * (1 - al) ∧ m' = m / (1 - al) ∧ al' = al * η)

lemma apd_potential {α η al t' m' al' : ℝ} (ht : 0 < t) (hm : 0 < m) (hA : ∀ v, ‖A.matvec v‖ ≤ K * ‖v‖) (hκ0 : 0 ≤ κ) (hκ1 : κ < 1)
    (hκ : t * m * K ^ 2 ≤ κ ^ 2) (hal0 : 0 ≤ al) (hal : al ≤ α) (hα : α < 1) (hη : η < 1) (hr : ApdRel η t m al t' m' al') (v : E × F) :
    Real.exp (1 / ((1 - α) * (1 - κ) * (1 - η)) * al') * cpGauge A t' m' v ≤
      Real.exp (1 / ((1 - α) * (1 - κ) * (1 - η)) * al) * cpGauge A t m v := by
  set B := 1 / ((1 - α) * (1 - κ) * (1 - η)) with hB
  have a1 : 0 < 1 - α := by linarith
  have k1 : 0 < 1 - κ := by linarith
  have n1 : 0 < 1 - η := by linarith
  have l1 : 0 < 1 - al := by linarith
  set P := ‖v.1‖ ^ 2 / t with hP
  set Q := ‖v.2‖ ^ 2 / m with hQ
  have hP0 : 0 ≤ P := by positivity
  have hQ0 : 0 ≤ Q := by positivity
  have hlow := cpGauge_lower ht hm hA hκ0 hκ v
  rw [← hP, ← hQ] at hlow
  have hg0 : 0 ≤ cpGauge A t m v := le_trans (by positivity) hlow
  have hfrac : 1 / (1 - al) ≤ 1 + al / (1 - α) := by
    rw [div_le_iff₀ l1]
    have : (1 + al / (1 - α)) * (1 - al) = 1 + (al / (1 - α)) * (α - al) := by field_simp; ring
    rw [this]
    have : 0 ≤ al / (1 - α) * (α - al) := mul_nonneg (div_nonneg hal0 a1.le) (by linarith)
    linarith
  -- the change of gauge
  have key : (t' = t / (1 - al) ∧ m' = m * (1 - al)) ∨ (t' = t * (1 - al) ∧ m' = m / (1 - al)) →
      cpGauge A t' m' v ≤ (1 + al / ((1 - α) * (1 - κ))) * cpGauge A t m v := by
    intro h
    have h1 : cpGauge A t' m' v ≤ cpGauge A t m v + al / (1 - α) * (P + Q) := by
      have q0 : 0 ≤ al / (1 - α) := div_nonneg hal0 a1.le
      unfold cpGauge
      rcases h with ⟨rfl, rfl⟩ | ⟨rfl, rfl⟩
      · have e1 : ‖v.1‖ ^ 2 / (t / (1 - al)) = P * (1 - al) := by rw [hP]; field_simp
        have e2 : ‖v.2‖ ^ 2 / (m * (1 - al)) = Q * (1 / (1 - al)) := by rw [hQ]; field_simp
        rw [e1, e2, ← hP, ← hQ]
        have := mul_le_mul_of_nonneg_left hfrac hQ0
        nlinarith [mul_nonneg hal0 hP0, mul_nonneg q0 hP0]
      · have e1 : ‖v.1‖ ^ 2 / (t * (1 - al)) = P * (1 / (1 - al)) := by rw [hP]; field_simp
        have e2 : ‖v.2‖ ^ 2 / (m / (1 - al)) = Q * (1 - al) := by rw [hQ]; field_simp
        rw [e1, e2, ← hP, ← hQ]
        have := mul_le_mul_of_nonneg_left hfrac hP0
        nlinarith [mul_nonneg hal0 hQ0, mul_nonneg q0 hQ0]
    have h2 : al / (1 - α) * (P + Q) ≤ al / ((1 - α) * (1 - κ)) * cpGauge A t m v := by
      have : al / (1 - α) * (P + Q) = al / ((1 - α) * (1 - κ)) * ((1 - κ) * (P + Q)) := by field_simp
      rw [this]
      exact mul_le_mul_of_nonneg_left hlow (by positivity)
    linarith
  have fin : cpGauge A t' m' v ≤ (1 + al / ((1 - α) * (1 - κ))) * cpGauge A t m v → al' = al * η →
      Real.exp (B * al') * cpGauge A t' m' v ≤ Real.exp (B * al) * cpGauge A t m v := by
    intro h he
    have h1 : 1 + al / ((1 - α) * (1 - κ)) ≤ Real.exp (al / ((1 - α) * (1 - κ))) := by
      rw [add_comm]; exact Real.add_one_le_exp _
    have h2 : Real.exp (B * al') * Real.exp (al / ((1 - α) * (1 - κ))) = Real.exp (B * al) := by
      rw [← Real.exp_add, he]
      congr 1
      rw [hB]
      field_simp
      ring
    calc _ ≤ Real.exp (B * al') * ((1 + al / ((1 - α) * (1 - κ))) * cpGauge A t m v) := mul_le_mul_of_nonneg_left h (Real.exp_pos _).le
      _ ≤ Real.exp (B * al') * (Real.exp (al / ((1 - α) * (1 - κ))) * cpGauge A t m v) :=
        mul_le_mul_of_nonneg_left (mul_le_mul_of_nonneg_right h1 hg0) (Real.exp_pos _).le
      _ = _ := by rw [← mul_assoc, h2]
  rcases hr with ⟨rfl, rfl, rfl⟩ | ⟨h1, h2, h3⟩ | ⟨h1, h2, h3⟩
  · exact le_rfl
  · exact fin (key (Or.inl ⟨h1, h2⟩)) h3
  · exact fin (key (Or.inr ⟨h1, h2⟩)) h3

/-- Convergence of primal-dual iterations with changing steps: the set `S` of solutions decreases every gauge and contains the limits of subsequences. -/
lemma acp_converges [FiniteDimensional ℝ E] [FiniteDimensional ℝ F] {α η lo up : ℝ} (hlo : 0 < lo) (hA : ∀ v, ‖A.matvec v‖ ≤ K * ‖v‖)
    (hκ0 : 0 ≤ κ) (hκ1 : κ < 1) (hα : α < 1) (hη : η < 1) (t m al : ℕ → ℝ) (V : ℕ → E × F) (S : Set (E × F)) (hne : S.Nonempty)
    (hκ : ∀ n, t n * m n * K ^ 2 ≤ κ ^ 2) (htb : ∀ n, lo ≤ t n ∧ t n ≤ up) (hmb : ∀ n, lo ≤ m n ∧ m n ≤ up) (hal : ∀ n, 0 ≤ al n ∧ al n ≤ α)
    (hrel : ∀ n, ApdRel η (t n) (m n) (al n) (t (n + 1)) (m (n + 1)) (al (n + 1)))
    (hfej : ∀ c ∈ S, ∀ n, cpGauge A (t n) (m n) (V (n + 1) - c) + cpGauge A (t n) (m n) (V (n + 1) - V n) ≤ cpGauge A (t n) (m n) (V n - c))
    (hcl : ∀ (φ : ℕ → ℕ) (c : E × F), StrictMono φ → Tendsto (V ∘ φ) atTop (𝓝 c) → Tendsto (fun n => V (n + 1) - V n) atTop (𝓝 0) → c ∈ S) :
    ∃ c ∈ S, Tendsto V atTop (𝓝 c) ∧ Tendsto (fun n => V (n + 1) - V n) atTop (𝓝 0) := by
  haveI : ProperSpace E := FiniteDimensional.proper_real E
  haveI : ProperSpace F := FiniteDimensional.proper_real F
  have ht : ∀ n, 0 < t n := fun n => hlo.trans_le (htb n).1
  have hm : ∀ n, 0 < m n := fun n => hlo.trans_le (hmb n).1
  have hup : 0 < up := (ht 0).trans_le (htb 0).2
  have k1 : 0 < 1 - κ := by linarith
  set B := 1 / ((1 - α) * (1 - κ) * (1 - η)) with hB
  have hB0 : 0 ≤ B := by
    have a1 : 0 < 1 - α := by linarith
    have n1 : 0 < 1 - η := by linarith
    positivity
  -- the gauges compare with the norm
  have hlow : ∀ n v, (1 - κ) / up * ‖v‖ ^ 2 ≤ cpGauge A (t n) (m n) v := fun n v => by
    refine le_trans ?_ (cpGauge_lower (ht n) (hm n) hA hκ0 (hκ n) v)
    have h1 : ‖v.1‖ ^ 2 / up ≤ ‖v.1‖ ^ 2 / t n := div_le_div_of_nonneg_left (sq_nonneg _) (ht n) (htb n).2
    have h2 : ‖v.2‖ ^ 2 / up ≤ ‖v.2‖ ^ 2 / m n := div_le_div_of_nonneg_left (sq_nonneg _) (hm n) (hmb n).2
    have h3 : ‖v‖ ^ 2 / up ≤ ‖v.1‖ ^ 2 / up + ‖v.2‖ ^ 2 / up := by
      rw [← add_div]
      refine div_le_div_of_nonneg_right ?_ hup.le
      rw [Prod.norm_def]
      rcases max_cases ‖v.1‖ ‖v.2‖ with ⟨h, -⟩ | ⟨h, -⟩ <;> rw [h] <;> nlinarith [sq_nonneg ‖v.1‖, sq_nonneg ‖v.2‖]
    have h4 : (1 - κ) / up * ‖v‖ ^ 2 = (1 - κ) * (‖v‖ ^ 2 / up) := by ring
    rw [h4]
    exact mul_le_mul_of_nonneg_left (by linarith) k1.le
  have hg0 : ∀ n v, 0 ≤ cpGauge A (t n) (m n) v := fun n v => le_trans (by positivity) (hlow n v)
  have hupp : ∀ n v, cpGauge A (t n) (m n) v ≤ 2 * (2 / lo) * ‖v‖ ^ 2 := fun n v => by
    refine (cpGauge_upper (ht n) (hm n) hA hκ0 (hκ n) v).trans ?_
    have n1 : ‖v.1‖ ^ 2 ≤ ‖v‖ ^ 2 := pow_le_pow_left₀ (norm_nonneg _) (by rw [Prod.norm_def]; exact le_max_left _ _) 2
    have n2 : ‖v.2‖ ^ 2 ≤ ‖v‖ ^ 2 := pow_le_pow_left₀ (norm_nonneg _) (by rw [Prod.norm_def]; exact le_max_right _ _) 2
    have h1 : ‖v.1‖ ^ 2 / t n ≤ ‖v‖ ^ 2 / lo := div_le_div₀ (sq_nonneg _) n1 hlo (htb n).1
    have h2 : ‖v.2‖ ^ 2 / m n ≤ ‖v‖ ^ 2 / lo := div_le_div₀ (sq_nonneg _) n2 hlo (hmb n).1
    have h3 : 0 ≤ ‖v.1‖ ^ 2 / t n + ‖v.2‖ ^ 2 / m n := add_nonneg (div_nonneg (sq_nonneg _) (ht n).le) (div_nonneg (sq_nonneg _) (hm n).le)
    calc _ ≤ 2 * (‖v.1‖ ^ 2 / t n + ‖v.2‖ ^ 2 / m n) := mul_le_mul_of_nonneg_right (by linarith) h3
      _ ≤ 2 * (‖v‖ ^ 2 / lo + ‖v‖ ^ 2 / lo) := by linarith
      _ = _ := by ring
  -- the potential
  let L : E × F → ℕ → ℝ := fun c n => Real.exp (B * al n) * cpGauge A (t n) (m n) (V n - c)
  have hL0 : ∀ c n, 0 ≤ L c n := fun c n => mul_nonneg (Real.exp_pos _).le (hg0 _ _)
  have hLstep : ∀ c ∈ S, ∀ n, L c (n + 1) + cpGauge A (t n) (m n) (V (n + 1) - V n) ≤ L c n := fun c hc n => by
    have h1 := apd_potential (ht n) (hm n) hA hκ0 hκ1 (hκ n) (hal n).1 (hal n).2 hα hη (hrel n) (V (n + 1) - c)
    have h2 := mul_le_mul_of_nonneg_left (hfej c hc n) (Real.exp_pos (B * al n)).le
    have h3 : 1 ≤ Real.exp (B * al n) := Real.one_le_exp (mul_nonneg hB0 (hal n).1)
    have h4 := mul_le_mul_of_nonneg_right h3 (hg0 n (V (n + 1) - V n))
    simp only [L]
    rw [← hB] at h1
    rw [mul_add] at h2
    linarith
  have hLanti : ∀ c ∈ S, Antitone (L c) := fun c hc => antitone_nat_of_succ_le fun n => by
    have := hLstep c hc n
    have := hg0 n (V (n + 1) - V n)
    linarith
  have hLlim : ∀ c ∈ S, Tendsto (L c) atTop (𝓝 (⨅ n, L c n)) := fun c hc =>
    tendsto_atTop_ciInf (hLanti c hc) ⟨0, by rintro _ ⟨n, rfl⟩; exact hL0 c n⟩
  have hVL : ∀ c n, (1 - κ) / up * ‖V n - c‖ ^ 2 ≤ L c n := fun c n => by
    have h3 : 1 ≤ Real.exp (B * al n) := Real.one_le_exp (mul_nonneg hB0 (hal n).1)
    have h4 := mul_le_mul_of_nonneg_right h3 (hg0 n (V n - c))
    simp only [L]
    linarith [hlow n (V n - c)]
  have hq : 0 < (1 - κ) / up := by positivity
  have small : ∀ (u : ℕ → E × F) (b : ℕ → ℝ), (∀ n, (1 - κ) / up * ‖u n‖ ^ 2 ≤ b n) → Tendsto b atTop (𝓝 0) → Tendsto u atTop (𝓝 0) := by
    intro u b h hb
    rw [tendsto_zero_iff_norm_tendsto_zero]
    have h1 : Tendsto (fun n => √(b n / ((1 - κ) / up))) atTop (𝓝 0) := by
      have := (hb.div_const ((1 - κ) / up)).sqrt
      simpa using this
    refine squeeze_zero (fun n => norm_nonneg _) (fun n => ?_) h1
    refine Real.le_sqrt_of_sq_le ?_
    rw [le_div_iff₀ hq, mul_comm]
    exact h n
  obtain ⟨c0, hc0⟩ := hne
  -- the increments vanish
  have hd : Tendsto (fun n => V (n + 1) - V n) atTop (𝓝 0) := by
    have h1 := hLlim c0 hc0
    have h2 : Tendsto (fun n => L c0 n - L c0 (n + 1)) atTop (𝓝 0) := by
      have := h1.sub (h1.comp (tendsto_add_atTop_nat 1))
      rwa [sub_self] at this
    refine small _ _ (fun n => ?_) h2
    have := hLstep c0 hc0 n
    linarith [hlow n (V (n + 1) - V n)]
  have hbdd : Bornology.IsBounded (Set.range V) := by
    rw [isBounded_iff_forall_norm_le]
    refine ⟨‖c0‖ + √(L c0 0 / ((1 - κ) / up)), ?_⟩
    rintro _ ⟨n, rfl⟩
    have h1 : ‖V n - c0‖ ≤ √(L c0 0 / ((1 - κ) / up)) := by
      refine Real.le_sqrt_of_sq_le ?_
      rw [le_div_iff₀ hq, mul_comm]
      exact (hVL c0 n).trans (hLanti c0 hc0 (Nat.zero_le n))
    have h2 : ‖V n‖ ≤ ‖c0‖ + ‖V n - c0‖ := by
      have := norm_add_le c0 (V n - c0)
      rwa [add_sub_cancel] at this
    linarith
  obtain ⟨c, -, φ, hφ, hlim⟩ := tendsto_subseq_of_bounded hbdd fun n => Set.mem_range_self n
  have hc := hcl φ c hφ hlim hd
  refine ⟨c, hc, ?_, hd⟩
  have hsub : Tendsto (fun n => L c (φ n)) atTop (𝓝 0) := by
    have h1 : Tendsto (fun n => Real.exp (B * α) * (2 * (2 / lo) * ‖V (φ n) - c‖ ^ 2)) atTop (𝓝 0) := by
      have h2 : Tendsto (fun n => V (φ n) - c) atTop (𝓝 0) := by
        have := hlim.sub_const c
        rwa [sub_self] at this
      have h3 := (((h2.norm.pow 2).const_mul (2 * (2 / lo))).const_mul (Real.exp (B * α)))
      simpa using h3
    refine squeeze_zero (fun n => hL0 c _) (fun n => ?_) h1
    simp only [L]
    exact mul_le_mul (Real.exp_le_exp.2 (mul_le_mul_of_nonneg_left (hal _).2 hB0)) (hupp _ _) (hg0 _ _) (Real.exp_pos _).le
  have hall : Tendsto (L c) atTop (𝓝 0) := by
    have h1 := hLlim c hc
    rwa [tendsto_nhds_unique (h1.comp hφ.tendsto_atTop) hsub] at h1
  have := (small (fun n => V n - c) (L c) (hVL c) hall).add_const c
  simpa using this

end

end Verif
