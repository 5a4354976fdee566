import Verif.Spec.Optim
import Verif.Lemmas.Prox
import Mathlib.Analysis.PSeries
import Mathlib.Topology.MetricSpace.Bounded
import Mathlib.Topology.Sequences
import Mathlib.Algebra.Order.Chebyshev
import Mathlib.Topology.MetricSpace.Sequences

/-! # Convergence of Dykstra's cyclic algorithm (Boyle and Dykstra), for closed convex functions -/

open scoped RealInnerProductSpace
open Filter Topology

set_option linter.unusedSectionVars false

namespace Verif

/-- A square summable sequence: `a n * ∑_{l ≤ n} a l` is arbitrarily small infinitely often. -/
lemma frequently_mul_sum_small {a : ℕ → ℝ} (ha : ∀ n, 0 ≤ a n) (hs : Summable fun n => a n ^ 2) {ε : ℝ} (hε : 0 < ε) :
    ∃ᶠ n in atTop, a n * ∑ l ∈ Finset.range (n + 1), a l < ε := by
  rw [Filter.Frequently]
  intro h
  simp only [not_lt] at h
  obtain ⟨N, hN⟩ := eventually_atTop.1 h
  set A := ∑' n, a n ^ 2 with hA
  have hA0 : 0 ≤ A := tsum_nonneg fun n => sq_nonneg _
  have hS : ∀ n, (∑ l ∈ Finset.range (n + 1), a l) ^ 2 ≤ (n + 1) * A := by
    intro n
    have h1 := sq_sum_le_card_mul_sum_sq (s := Finset.range (n + 1)) (f := a)
    rw [Finset.card_range] at h1
    have h2 : ∑ i ∈ Finset.range (n + 1), a i ^ 2 ≤ A := hs.sum_le_tsum _ fun i _ => sq_nonneg _
    calc _ ≤ _ := h1
      _ ≤ _ := by push_cast; exact mul_le_mul_of_nonneg_left h2 (by positivity)
  have hApos : 0 < A := by
    rcases hA0.lt_or_eq with h0 | h0
    · exact h0
    · have h1 := hS N
      rw [← h0, mul_zero] at h1
      have h2 : ∑ l ∈ Finset.range (N + 1), a l = 0 := by nlinarith
      have h3 := hN N le_rfl
      rw [h2, mul_zero] at h3
      linarith
  have hlow : ∀ n, N ≤ n → ε ^ 2 / A * (1 / ((n : ℝ) + 1)) ≤ a n ^ 2 := by
    intro n hn
    have h1 := hN n hn
    have h2 : ε ^ 2 ≤ a n ^ 2 * ((n + 1) * A) := by
      calc ε ^ 2 ≤ (a n * ∑ l ∈ Finset.range (n + 1), a l) ^ 2 := by gcongr
        _ = a n ^ 2 * (∑ l ∈ Finset.range (n + 1), a l) ^ 2 := by ring
        _ ≤ _ := mul_le_mul_of_nonneg_left (hS n) (sq_nonneg _)
    rw [div_mul_div_comm, mul_one, div_le_iff₀ (by positivity)]
    linarith
  have hsum : Summable fun n : ℕ => ε ^ 2 / A * (1 / ((n : ℝ) + N + 1)) := by
    refine Summable.of_nonneg_of_le (fun n => by positivity) (fun n => ?_) ((summable_nat_add_iff N).2 hs)
    have := hlow (n + N) (by omega)
    push_cast at this
    exact this
  have h5 := (summable_mul_left_iff (a := ε ^ 2 / A) (by positivity)).1 hsum
  have h6 : Summable fun n : ℕ => 1 / ((n + (N + 1) : ℕ) : ℝ) := by
    refine h5.congr fun n => ?_
    push_cast; ring_nf
  exact Real.not_summable_one_div_natCast ((summable_nat_add_iff (f := fun n : ℕ => 1 / (n : ℝ)) (N + 1)).1 h6)

variable {E : Type*} [NormedAddCommGroup E] [InnerProductSpace ℝ E] {m : ℕ}

lemma closed_lsc {F : XFun E} (h : F.Closed) {x : E} {r : ℝ} (hr : r < F.val x) : ∀ᶠ y in 𝓝 x, y ∈ F.dom → r < F.val y := by
  have h1 : ((x, r) : E × ℝ) ∈ {p : E × ℝ | p.1 ∈ F.dom ∧ F.val p.1 ≤ p.2}ᶜ := by
    rintro ⟨-, h2⟩; simp only at h2; linarith
  have h2 := h.isOpen_compl.mem_nhds h1
  have h3 : Tendsto (fun y : E => (y, r)) (𝓝 x) (𝓝 (x, r)) := (continuous_id.prodMk continuous_const).tendsto x
  filter_upwards [h3 h2] with y hy hyd
  by_contra hc
  exact hy ⟨hyd, not_lt.1 hc⟩

lemma closed_lsc_out {F : XFun E} (h : F.Closed) {x : E} (hx : x ∉ F.dom) (r : ℝ) : ∀ᶠ y in 𝓝 x, y ∈ F.dom → r < F.val y := by
  have h1 : ((x, r) : E × ℝ) ∈ {p : E × ℝ | p.1 ∈ F.dom ∧ F.val p.1 ≤ p.2}ᶜ := fun h2 => hx h2.1
  have h2 := h.isOpen_compl.mem_nhds h1
  have h3 : Tendsto (fun y : E => (y, r)) (𝓝 x) (𝓝 (x, r)) := (continuous_id.prodMk continuous_const).tendsto x
  filter_upwards [h3 h2] with y hy hyd
  by_contra hc
  exact hy ⟨hyd, not_lt.1 hc⟩

section
variable {F : Fin m → XFun E} {x0 : E} {P : ℕ → ℕ → E} {z : ℕ → Fin m → E}

/-- The data of a run: `P k 0, …, P k m` are the points of sweep `k`. -/
structure DykRun (F : Fin m → XFun E) (x0 : E) (P : ℕ → ℕ → E) (z : ℕ → Fin m → E) : Prop where
  start : P 0 0 = x0
  zero : ∀ j, z 0 j = 0
  link : ∀ k, P (k + 1) 0 = P k m
  dual : ∀ k (j : Fin m), z (k + 1) j = z k j + P k j - P k (j + 1)
  sub : ∀ k (j : Fin m), IsSubgrad (F j) (P k (j + 1)) (z (k + 1) j)

/-- Length of the path of sweep `k`. -/
noncomputable def dykLen (m : ℕ) (P : ℕ → ℕ → E) (k : ℕ) : ℝ := ∑ j : Fin m, ‖P k j - P k (j + 1)‖

/-- The Lyapunov function. -/
noncomputable def dykV (F : Fin m → XFun E) (P : ℕ → ℕ → E) (z : ℕ → Fin m → E) (c : E) (k : ℕ) : ℝ :=
  ‖P (k + 1) 0 - c‖ ^ 2 + 2 * ∑ j : Fin m, (⟪z (k + 1) j, P k (j + 1) - c⟫ - (F j).val (P k (j + 1)) + (F j).val c)

lemma tele_fin (m : ℕ) (f : ℕ → ℝ) : ∑ j : Fin m, (f j - f (j + 1)) = f 0 - f m := by
  rw [← Finset.sum_range (f := fun j => f j - f (j + 1)), Finset.sum_range_sub']

lemma tele_fin_vec (m : ℕ) (f : ℕ → E) : ∑ j : Fin m, (f j - f (j + 1)) = f 0 - f m := by
  rw [← Finset.sum_range (f := fun j => f j - f (j + 1)), Finset.sum_range_sub']

lemma DykRun.conserved (h : DykRun F x0 P z) : ∀ k, P k 0 + ∑ j, z k j = x0 := by
  intro k
  induction k with
  | zero => simp [h.start, h.zero]
  | succ k ih =>
    have : ∑ j : Fin m, (P k j - P k (j + 1)) = P k 0 - P k m := tele_fin_vec m (P k)
    simp only [h.dual, add_sub_assoc, Finset.sum_add_distrib, this, h.link]
    rw [← ih]; abel

lemma dykV_terms (h : DykRun F x0 P z) {c : E} (hc : ∀ j, c ∈ (F j).dom) (k : ℕ) (j : Fin m) :
    0 ≤ ⟪z (k + 1) j, P k (j + 1) - c⟫ - (F j).val (P k (j + 1)) + (F j).val c := by
  have h1 := (h.sub k j).2 c (hc j)
  rw [show c - P k (j + 1) = -(P k (j + 1) - c) by abel, inner_neg_right] at h1
  linarith

lemma dykV_norm (h : DykRun F x0 P z) {c : E} (hc : ∀ j, c ∈ (F j).dom) (k : ℕ) : ‖P (k + 1) 0 - c‖ ^ 2 ≤ dykV F P z c k := by
  unfold dykV
  have := Finset.sum_nonneg fun j (_ : j ∈ Finset.univ) => dykV_terms h hc k j
  linarith

lemma dykV_step (h : DykRun F x0 P z) (c : E) (k : ℕ) :
    dykV F P z c (k + 1) + ∑ j : Fin m, ‖P (k + 1) j - P (k + 1) (j + 1)‖ ^ 2 ≤ dykV F P z c k := by
  unfold dykV
  have h1 : ∑ j : Fin m, (‖P (k + 1) j - c‖ ^ 2 - ‖P (k + 1) (j + 1) - c‖ ^ 2) = ‖P (k + 1) 0 - c‖ ^ 2 - ‖P (k + 1) m - c‖ ^ 2 :=
    tele_fin m fun j => ‖P (k + 1) j - c‖ ^ 2
  rw [h.link (k + 1)]
  have h2 : ∀ j : Fin m, ‖P (k + 1) j - P (k + 1) (j + 1)‖ ^ 2 + 2 * (⟪z (k + 1 + 1) j, P (k + 1) (j + 1) - c⟫ - (F j).val (P (k + 1) (j + 1)) + (F j).val c) -
      2 * (⟪z (k + 1) j, P k (j + 1) - c⟫ - (F j).val (P k (j + 1)) + (F j).val c) ≤ ‖P (k + 1) j - c‖ ^ 2 - ‖P (k + 1) (j + 1) - c‖ ^ 2 := by
    intro j
    have e1 : P (k + 1) j - c = (P (k + 1) j - P (k + 1) (j + 1)) + (P (k + 1) (j + 1) - c) := by abel
    have e2 : P (k + 1) j - P (k + 1) (j + 1) = z (k + 1 + 1) j - z (k + 1) j := by rw [h.dual (k + 1) j]; abel
    have q1 : ‖P (k + 1) j - c‖ ^ 2 = ‖P (k + 1) j - P (k + 1) (j + 1)‖ ^ 2 + 2 * (⟪z (k + 1 + 1) j, P (k + 1) (j + 1) - c⟫ - ⟪z (k + 1) j, P (k + 1) (j + 1) - c⟫) +
        ‖P (k + 1) (j + 1) - c‖ ^ 2 := by
      conv_lhs => rw [e1, norm_add_sq_real]
      rw [← inner_sub_left, ← e2]
    have h3 := (h.sub k j).2 _ (h.sub (k + 1) j).1
    have q2 : ⟪z (k + 1) j, P (k + 1) (j + 1) - P k (j + 1)⟫ = ⟪z (k + 1) j, P (k + 1) (j + 1) - c⟫ - ⟪z (k + 1) j, P k (j + 1) - c⟫ := by
      rw [← inner_sub_right]; congr 1; abel
    rw [q2] at h3
    rw [q1]; linarith
  have h3 := Finset.sum_le_sum fun j (_ : j ∈ Finset.univ) => h2 j
  rw [h1, Finset.sum_sub_distrib, Finset.sum_add_distrib, ← Finset.mul_sum, ← Finset.mul_sum] at h3
  linarith

lemma dykV_antitone (h : DykRun F x0 P z) (c : E) : Antitone (dykV F P z c) :=
  antitone_nat_of_succ_le fun k => by
    have := dykV_step h c k
    have h2 : 0 ≤ ∑ j : Fin m, ‖P (k + 1) j - P (k + 1) (j + 1)‖ ^ 2 := Finset.sum_nonneg fun j _ => sq_nonneg _
    linarith

lemma dykLen_nonneg (m : ℕ) (P : ℕ → ℕ → E) (k : ℕ) : 0 ≤ dykLen m P k := Finset.sum_nonneg fun _ _ => norm_nonneg _

lemma dykLen_summable (h : DykRun F x0 P z) {c : E} (hc : ∀ j, c ∈ (F j).dom) : Summable fun k => dykLen m P k ^ 2 := by
  rw [← summable_nat_add_iff 1]
  have hs : Summable fun k => ∑ j : Fin m, ‖P (k + 1) j - P (k + 1) (j + 1)‖ ^ 2 := by
    refine summable_of_sum_range_le (c := dykV F P z c 0) (fun k => Finset.sum_nonneg fun j _ => sq_nonneg _) fun n => ?_
    have key : ∀ n, dykV F P z c n + ∑ k ∈ Finset.range n, ∑ j : Fin m, ‖P (k + 1) j - P (k + 1) (j + 1)‖ ^ 2 ≤ dykV F P z c 0 := by
      intro n
      induction n with
      | zero => simp
      | succ n ih => rw [Finset.sum_range_succ]; have := dykV_step h c n; linarith
    have h1 := key n
    have h2 := dykV_norm h hc n
    have h3 := sq_nonneg ‖P (n + 1) 0 - c‖
    linarith
  refine Summable.of_nonneg_of_le (fun k => sq_nonneg _) (fun k => ?_) (hs.mul_left (m : ℝ))
  have := sq_sum_le_card_mul_sum_sq (s := (Finset.univ : Finset (Fin m))) (f := fun j => ‖P (k + 1) j - P (k + 1) (j + 1)‖)
  simpa [dykLen] using this

lemma dual_bound (h : DykRun F x0 P z) (k : ℕ) (j : Fin m) : ‖z k j‖ ≤ ∑ l ∈ Finset.range k, dykLen m P l := by
  induction k with
  | zero => simp [h.zero]
  | succ k ih =>
    rw [Finset.sum_range_succ, h.dual, add_sub_assoc]
    refine (norm_add_le _ _).trans (add_le_add ih ?_)
    exact Finset.single_le_sum (f := fun j : Fin m => ‖P k j - P k (j + 1)‖) (fun _ _ => norm_nonneg _) (Finset.mem_univ j)

lemma path_bound (k : ℕ) (j : Fin m) : ‖P k (j + 1) - P k m‖ ≤ dykLen m P k := by
  have key : ∀ i, i ≤ m → ‖P k i - P k m‖ ≤ ∑ l ∈ Finset.Ico i m, ‖P k l - P k (l + 1)‖ := by
    intro i hi
    have : P k i - P k m = ∑ l ∈ Finset.Ico i m, (P k l - P k (l + 1)) := by
      rw [← neg_inj, ← Finset.sum_neg_distrib]
      simp only [neg_sub]
      rw [Finset.sum_Ico_sub (P k) hi]
    rw [this]; exact norm_sum_le _ _
  refine (key (j + 1) j.2).trans ?_
  unfold dykLen
  rw [← Finset.sum_range (f := fun l => ‖P k l - P k (l + 1)‖), Finset.range_eq_Ico]
  exact Finset.sum_le_sum_of_subset_of_nonneg (Finset.Ico_subset_Ico_left (Nat.zero_le _)) fun _ _ _ => norm_nonneg _

/-- Boyle–Dykstra: the sweeps converge to the proximal point of the sum. -/
theorem dyk_converges [ProperSpace E] (h : DykRun F x0 P z) (hcl : ∀ j, (F j).Closed) {c0 : E} (hc0 : ∀ j, c0 ∈ (F j).dom) :
    ∃ p, Tendsto (fun k => P k 0) atTop (𝓝 p) ∧ IsSubgrad (sumObj F) p (x0 - p) := by
  set a := dykLen m P with ha
  set S : ℕ → ℝ := fun n => ∑ l ∈ Finset.range (n + 1), a l with hS
  have ha0 : ∀ n, 0 ≤ a n := dykLen_nonneg m P
  have has := dykLen_summable h hc0
  have ha_lim : Tendsto a atTop (𝓝 0) := by
    have h1 := has.tendsto_atTop_zero
    have h2 := (Real.continuous_sqrt.tendsto 0).comp h1
    simp only [Real.sqrt_zero] at h2
    refine h2.congr fun n => ?_
    exact Real.sqrt_sq (ha0 n)
  obtain ⟨φ, hφ, hφs⟩ := extraction_forall_of_frequently fun n : ℕ => frequently_mul_sum_small ha0 has (ε := 1 / ((n : ℝ) + 1)) (by positivity)
  have haS : Tendsto (fun n => a (φ n) * S (φ n)) atTop (𝓝 0) :=
    squeeze_zero (fun n => mul_nonneg (ha0 _) (Finset.sum_nonneg fun _ _ => ha0 _)) (fun n => (hφs n).le) tendsto_one_div_add_atTop_nhds_zero_nat
  have hbdd : ∀ n, P (φ n + 1) 0 ∈ Metric.closedBall c0 (Real.sqrt (dykV F P z c0 0)) := by
    intro n
    rw [Metric.mem_closedBall, dist_eq_norm]
    exact Real.le_sqrt_of_sq_le ((dykV_norm h hc0 _).trans (dykV_antitone h c0 (Nat.zero_le _)))
  obtain ⟨p, -, χ, hχ, hlim⟩ := tendsto_subseq_of_bounded Metric.isBounded_closedBall hbdd
  set ψ := φ ∘ χ with hψ
  have hψm : StrictMono ψ := hφ.comp hχ
  have hPm : Tendsto (fun n => P (ψ n) m) atTop (𝓝 p) := by
    refine hlim.congr fun n => ?_
    simp only [Function.comp, hψ, h.link]
  have haψ : Tendsto (fun n => a (ψ n)) atTop (𝓝 0) := ha_lim.comp hψm.tendsto_atTop
  have haSψ : Tendsto (fun n => a (ψ n) * S (ψ n)) atTop (𝓝 0) := haS.comp hχ.tendsto_atTop
  have hPj : ∀ j : Fin m, Tendsto (fun n => P (ψ n) (j + 1)) atTop (𝓝 p) := by
    intro j
    have h1 : Tendsto (fun n => P (ψ n) (j + 1) - P (ψ n) m) atTop (𝓝 0) :=
      squeeze_zero_norm (fun n => path_bound (ψ n) j) haψ
    have h2 := h1.add hPm
    simpa using h2
  -- the inner products with the dual variables
  have hinner : ∀ c n, ∑ j : Fin m, ⟪z (ψ n + 1) j, P (ψ n) (j + 1) - c⟫ ≤ m * (a (ψ n) * S (ψ n)) + ⟪x0 - P (ψ n) m, P (ψ n) m - c⟫ := by
    intro c n
    have e : ∀ j : Fin m, ⟪z (ψ n + 1) j, P (ψ n) (j + 1) - c⟫ = ⟪z (ψ n + 1) j, P (ψ n) (j + 1) - P (ψ n) m⟫ + ⟪z (ψ n + 1) j, P (ψ n) m - c⟫ := by
      intro j; rw [← inner_add_right]; congr 1; abel
    simp only [e]
    rw [Finset.sum_add_distrib, ← sum_inner]
    have e2 : ∑ j, z (ψ n + 1) j = x0 - P (ψ n) m := by
      have := h.conserved (ψ n + 1)
      rw [h.link] at this
      rw [← this]; abel
    rw [e2]
    refine add_le_add ?_ le_rfl
    have : ∀ j : Fin m, ⟪z (ψ n + 1) j, P (ψ n) (j + 1) - P (ψ n) m⟫ ≤ a (ψ n) * S (ψ n) := by
      intro j
      refine (real_inner_le_norm _ _).trans ?_
      rw [mul_comm]
      exact mul_le_mul (path_bound _ j) (dual_bound h _ j) (norm_nonneg _) (ha0 _)
    have := Finset.sum_le_sum fun j (_ : j ∈ Finset.univ) => this j
    simpa using this
  have hup : ∀ c, (∀ j, c ∈ (F j).dom) → ∀ n, ∑ j : Fin m, (F j).val (P (ψ n) (j + 1)) ≤
      ∑ j, (F j).val c + (m * (a (ψ n) * S (ψ n)) + ⟪x0 - P (ψ n) m, P (ψ n) m - c⟫) := by
    intro c hc n
    have h1 := Finset.sum_nonneg fun j (_ : j ∈ Finset.univ) => dykV_terms h hc (ψ n) j
    rw [Finset.sum_add_distrib, Finset.sum_sub_distrib] at h1
    have := hinner c n
    linarith
  have hrem : ∀ c, Tendsto (fun n => m * (a (ψ n) * S (ψ n)) + ⟪x0 - P (ψ n) m, P (ψ n) m - c⟫) atTop (𝓝 (⟪x0 - p, p - c⟫)) := by
    intro c
    have h1 := haSψ.const_mul (m : ℝ)
    have h2 : Tendsto (fun n => ⟪x0 - P (ψ n) m, P (ψ n) m - c⟫) atTop (𝓝 ⟪x0 - p, p - c⟫) := (hPm.const_sub x0).inner (hPm.sub_const c)
    simpa using h1.add h2
  -- an affine lower bound for every function
  have hlow : ∀ j, ∃ B, ∀ᶠ n in atTop, B ≤ (F j).val (P (ψ n) (j + 1)) := by
    intro j
    have hs := h.sub 0 j
    have h1 : Tendsto (fun n => (F j).val (P 0 (j + 1)) + ⟪z (0 + 1) j, P (ψ n) (j + 1) - P 0 (j + 1)⟫) atTop
        (𝓝 ((F j).val (P 0 (j + 1)) + ⟪z (0 + 1) j, p - P 0 (j + 1)⟫)) :=
      (tendsto_const_nhds.inner ((hPj j).sub_const _)).const_add _
    refine ⟨(F j).val (P 0 (j + 1)) + ⟪z (0 + 1) j, p - P 0 (j + 1)⟫ - 1, ?_⟩
    filter_upwards [h1.eventually (lt_mem_nhds (show _ - 1 < _ from sub_one_lt _))] with n hn
    have := hs.2 _ (h.sub (ψ n) j).1
    linarith
  choose B hB using hlow
  have hB' : ∀ᶠ n in atTop, ∀ j, B j ≤ (F j).val (P (ψ n) (j + 1)) := eventually_all.2 hB
  have hpd : ∀ j, p ∈ (F j).dom := by
    intro j
    by_contra hj
    obtain ⟨n, h1, h2, h3⟩ := (((hPj j).eventually (closed_lsc_out (hcl j) hj
      (∑ j, (F j).val c0 + (⟪x0 - p, p - c0⟫ + 1) - ∑ i, B i + B j))).and (hB'.and ((hrem c0).eventually (gt_mem_nhds (lt_add_one _))))).exists
    have h1' := h1 (h.sub (ψ n) j).1
    have h4 := hup c0 hc0 n
    have h5 : ∑ i, (B i) + ((F j).val (P (ψ n) (j + 1)) - B j) ≤ ∑ i : Fin m, (F i).val (P (ψ n) (i + 1)) := by
      have h6 := Finset.single_le_sum (f := fun i : Fin m => (F i).val (P (ψ n) (i + 1)) - B i) (fun i _ => sub_nonneg.2 (h2 i)) (Finset.mem_univ j)
      rw [Finset.sum_sub_distrib] at h6
      linarith
    linarith
  have hlsc : ∀ δ, 0 < δ → ∀ᶠ n in atTop, ∑ j, (F j).val p - m * δ ≤ ∑ j : Fin m, (F j).val (P (ψ n) (j + 1)) := by
    intro δ hδ
    have h1 : ∀ j, ∀ᶠ n in atTop, (F j).val p - δ < (F j).val (P (ψ n) (j + 1)) := by
      intro j
      filter_upwards [(hPj j).eventually (closed_lsc (hcl j) (show (F j).val p - δ < (F j).val p by linarith))] with n hn
      exact hn (h.sub (ψ n) j).1
    filter_upwards [eventually_all.2 h1] with n hn
    have := Finset.sum_le_sum fun j (_ : j ∈ Finset.univ) => (hn j).le
    rw [Finset.sum_sub_distrib] at this
    simpa using this
  have hsub : IsSubgrad (sumObj F) p (x0 - p) := by
    refine ⟨hpd, fun c hc => ?_⟩
    change ∑ j, (F j).val p + _ ≤ ∑ j, (F j).val c
    have key : ∀ δ, 0 < δ → ∑ j, (F j).val p - m * δ ≤ ∑ j, (F j).val c + ⟪x0 - p, p - c⟫ := by
      intro δ hδ
      refine ge_of_tendsto ((hrem c).const_add (∑ j, (F j).val c)) ?_
      filter_upwards [hlsc δ hδ] with n hn
      exact hn.trans (hup c hc n)
    have h2 : ∑ j, (F j).val p ≤ ∑ j, (F j).val c + ⟪x0 - p, p - c⟫ := by
      refine le_of_forall_pos_le_add fun ε hε => ?_
      have := key (ε / (m + 1)) (by positivity)
      have h3 : (m : ℝ) * (ε / (m + 1)) ≤ ε := by rw [mul_div_assoc', div_le_iff₀ (by positivity)]; nlinarith
      linarith
    rw [show c - p = -(p - c) by abel, inner_neg_right]
    linarith
  refine ⟨p, ?_, hsub⟩
  -- the Lyapunov function at `p` tends to zero
  have hVsmall : ∀ ε, 0 < ε → ∃ n, dykV F P z p n < ε := by
    intro ε hε
    have h1 : Tendsto (fun n => ‖P (ψ n) m - p‖ ^ 2 + 2 * (m * (a (ψ n) * S (ψ n)) + ⟪x0 - P (ψ n) m, P (ψ n) m - p⟫)) atTop (𝓝 0) := by
      have h2 := (((hPm.sub_const p).norm).pow 2).add ((hrem p).const_mul 2)
      simpa using h2
    obtain ⟨n, h2, h3⟩ := ((h1.eventually (gt_mem_nhds (half_pos hε))).and (hlsc (ε / (4 * (m + 1))) (by positivity))).exists
    refine ⟨ψ n, ?_⟩
    unfold dykV
    rw [h.link, Finset.sum_add_distrib, Finset.sum_sub_distrib]
    have h4 := hinner p n
    have h5 : (m : ℝ) * (ε / (4 * (m + 1))) ≤ ε / 4 := by
      rw [mul_div_assoc', div_le_div_iff₀ (by positivity) (by positivity)]; nlinarith
    linarith
  have hV : Tendsto (dykV F P z p) atTop (𝓝 0) := by
    rw [Metric.tendsto_atTop]
    intro ε hε
    obtain ⟨N, hN⟩ := hVsmall ε hε
    refine ⟨N, fun n hn => ?_⟩
    have h1 := dykV_antitone h p hn
    have h2 := (sq_nonneg _).trans (dykV_norm h hpd n)
    rw [Real.dist_eq, sub_zero, abs_of_nonneg h2]
    linarith
  have hsq : Tendsto (fun k => ‖P (k + 1) 0 - p‖ ^ 2) atTop (𝓝 0) :=
    squeeze_zero (fun _ => sq_nonneg _) (dykV_norm h hpd) hV
  have hn : Tendsto (fun k => ‖P (k + 1) 0 - p‖) atTop (𝓝 0) := by
    have h2 := (Real.continuous_sqrt.tendsto 0).comp hsq
    simp only [Real.sqrt_zero] at h2
    refine h2.congr fun n => ?_
    simp only [Function.comp, Real.sqrt_sq (norm_nonneg _)]
  rw [← tendsto_add_atTop_iff_nat 1]
  exact tendsto_iff_norm_sub_tendsto_zero.2 hn

end

end Verif
