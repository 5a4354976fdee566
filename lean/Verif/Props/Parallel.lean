import Verif.Spec.Contract
import Verif.Spec.Optim
import Verif.Lemmas.Product
import Verif.Lemmas.Saddle
import Verif.Props.Lasso

/-! # C48 PPXA, C49 ConsensusADMM -/

open scoped RealInnerProductSpace
open Filter Topology

set_option linter.unusedSectionVars false

namespace Verif

variable {E : Type} [NormedAddCommGroup E] [InnerProductSpace ℝ E] {m : ℕ} {fs : Fin m → ProxOp E} {F : Fin m → XFun E} {w : Fin m → ℝ} {τ η : ℝ}

/-- The mean of the starting vectors minus their weighted mean: zero for a single starting vector and for equal weights. -/
noncomputable def startGap (w : Fin m → ℝ) (y0 : Fin m → E) : E := (1 / (m : ℝ)) • ∑ i, y0 i - ∑ i, w i • y0 i

/-- C48: a single starting vector (`y0` constant) has no gap when the weights sum to one. -/
lemma startGap_single [NeZero m] (hw1 : ∑ i, w i = 1) (x0 : E) : startGap w (fun _ => x0) = 0 := by
  unfold startGap
  have : (m : ℝ) ≠ 0 := Nat.cast_ne_zero.2 (NeZero.ne m)
  rw [← Finset.sum_smul, hw1, one_smul, Finset.sum_const, Finset.card_univ, Fintype.card_fin, ← Nat.cast_smul_eq_nsmul ℝ, smul_smul,
    one_div_mul_cancel this, one_smul, sub_self]

lemma startGap_uniform (y0 : Fin m → E) : startGap (fun _ => 1 / (m : ℝ)) y0 = 0 := by
  unfold startGap
  rw [← Finset.smul_sum, sub_self]

/-- The trajectory of `PPXA`. -/
lemma ppxa_traj [NeZero m] {P : Fin m → E → E} (hw : ∀ i, w i ≠ 0) (hf : ∀ i v, (fs i).prox v (τ / w i) = .ok (P i v)) (y0 : Fin m → E) (η : ℝ)
    (tol : ℝ) (mx : E → ℝ) :
    ∃ (X : ℕ → E) (Y : ℕ → Fin m → E), X 0 = (1 / (m : ℝ)) • ∑ i, y0 i ∧ Y 0 = y0 ∧
      (∀ n, X (n + 1) = X n + η • ((∑ j, w j • P j (Y n j)) - X n)) ∧
      (∀ n i, Y (n + 1) i = Y n i + η • ((2 : ℝ) • (∑ j, w j • P j (Y n j)) - X n - P i (Y n i))) ∧
      (∀ n, ∃ k ≤ n, ∃ xo, PPXA fs (some w) y0 τ η n tol mx = .ok ⟨X k, xo, Y k, (List.range k).map fun i => X (i + 1)⟩ ∧
        (∀ j, j + 1 < k → tol ≤ mx (X (j + 1) - X j)) ∧ (k < n → ∃ j, k = j + 1 ∧ mx (X (j + 1) - X j) < tol)) := by
  classical
  let nx : PPXAState E m → E := fun s => s.x + η • ((∑ j, w j • P j (s.y j)) - s.x)
  let ny : PPXAState E m → Fin m → E := fun s i => s.y i + η • ((2 : ℝ) • (∑ j, w j • P j (s.y j)) - s.x - P i (s.y i))
  have hbody : ∀ i (s : PPXAState E m), PPXA.body fs w τ η tol mx i s =
      if mx (nx s - s.xold) < tol then .ok (⟨nx s, s.xold, ny s, s.log ++ [nx s]⟩, true) else .ok (⟨nx s, nx s, ny s, s.log ++ [nx s]⟩, false) := by
    intro i s
    have : mapPy (fun i => if w i = 0 then (.error .nanResult : Py E) else (fs i).prox (s.y i) (τ / w i)) = .ok fun i => P i (s.y i) :=
      mapPy_ok fun i => by rw [if_neg (hw i), hf]
    unfold PPXA.body
    rw [this]
    rfl
  -- a trajectory that ignores the stopping test
  let step : PPXAState E m → PPXAState E m := fun s => ⟨nx s, nx s, ny s, s.log ++ [nx s]⟩
  let x0 : E := (1 / (m : ℝ)) • ∑ i, y0 i
  let S : ℕ → PPXAState E m := fun n => Nat.rec ⟨x0, x0, y0, []⟩ (fun _ s => step s) n
  have hS : ∀ n, S (n + 1) = step (S n) := fun n => rfl
  have hold : ∀ n, (S n).xold = (S n).x := fun n => by cases n <;> rfl
  have hlog : ∀ n, (S n).log = (List.range n).map fun i => (S (i + 1)).x := by
    intro n
    induction n with
    | zero => rfl
    | succ n ih => rw [List.range_succ, List.map_append, ← ih, hS]; rfl
  refine ⟨fun n => (S n).x, fun n => (S n).y, rfl, rfl, fun n => rfl, fun n i => rfl, fun n => ?_⟩
  have key : ∀ n i, ∃ k ≤ n, ∃ xo, forRange (PPXA.body fs w τ η tol mx) n i (S i) = .ok ⟨(S (i + k)).x, xo, (S (i + k)).y, (S (i + k)).log⟩ ∧
      (∀ j, j + 1 < k → tol ≤ mx ((S (i + j + 1)).x - (S (i + j)).x)) ∧ (k < n → ∃ j, k = j + 1 ∧ mx ((S (i + j + 1)).x - (S (i + j)).x) < tol) := by
    intro n
    induction n with
    | zero => intro i; exact ⟨0, le_rfl, (S i).xold, rfl, by simp, by simp⟩
    | succ n ih =>
      intro i
      have hb := hbody i (S i)
      rw [hold i] at hb
      by_cases ht : mx (nx (S i) - (S i).x) < tol
      · rw [if_pos ht] at hb
        refine ⟨1, by omega, (S i).x, ?_, fun j hj => by omega, fun _ => ⟨0, rfl, ht⟩⟩
        simp only [forRange, hb, if_true]
        rfl
      · rw [if_neg ht] at hb
        obtain ⟨k, hk, xo, h1, h2, h3⟩ := ih (i + 1)
        refine ⟨k + 1, by omega, xo, ?_, ?_, ?_⟩
        · simp only [forRange, hb, Bool.false_eq_true, if_false]
          rw [show i + (k + 1) = i + 1 + k by omega, ← h1]
        · intro j hj
          cases j with
          | zero => exact not_lt.1 ht
          | succ j =>
            have := h2 j (by omega)
            rwa [show i + (j + 1) = i + 1 + j by omega]
        · intro hk'
          obtain ⟨j, hj, hj'⟩ := h3 (by omega)
          exact ⟨j + 1, by omega, by rwa [show i + (j + 1) = i + 1 + j by omega]⟩
  obtain ⟨k, hk, xo, h1, h2, h3⟩ := key n 0
  simp only [zero_add] at h1 h2 h3
  refine ⟨k, hk, xo, ?_, h2, h3⟩
  unfold PPXA
  rw [if_neg (NeZero.ne m)]
  simp only
  rw [← hlog k]
  exact h1

/-- C48: the difference between `x` and the weighted mean of the `y` is conserved. -/
lemma ppxa_gap {P : Fin m → E → E} (hw1 : ∑ i, w i = 1) {X : ℕ → E} {Y : ℕ → Fin m → E}
    (hX : ∀ n, X (n + 1) = X n + η • ((∑ j, w j • P j (Y n j)) - X n))
    (hY : ∀ n i, Y (n + 1) i = Y n i + η • ((2 : ℝ) • (∑ j, w j • P j (Y n j)) - X n - P i (Y n i))) (n : ℕ) :
    X n - ∑ i, w i • Y n i = X 0 - ∑ i, w i • Y 0 i := by
  induction n with
  | zero => rfl
  | succ n ih =>
    rw [← ih, hX]
    set pn := ∑ j, w j • P j (Y n j) with hpn
    have : ∑ i, w i • Y (n + 1) i = ∑ i, w i • Y n i + η • (pn - X n) := by
      simp only [hY, smul_add, Finset.sum_add_distrib, smul_smul, mul_comm _ η]
      simp only [← smul_smul, ← Finset.smul_sum]
      congr 2
      simp only [smul_sub, Finset.sum_sub_distrib]
      rw [← Finset.sum_smul, ← Finset.sum_smul, hw1, one_smul, one_smul, ← hpn, two_smul]; abel
    rw [this]; abel

/-- The family `y_i + gap` follows the parallel proximal step. -/
lemma ppxa_step {P : Fin m → E → E} {δ : E} (hw1 : ∑ i, w i = 1) {X : ℕ → E} {Y : ℕ → Fin m → E}
    (hY : ∀ n i, Y (n + 1) i = Y n i + η • ((2 : ℝ) • (∑ j, w j • P j (Y n j)) - X n - P i (Y n i)))
    (hg : ∀ n, X n - ∑ i, w i • Y n i = δ) (n : ℕ) :
    (fun i => Y (n + 1) i + δ) = ppStep w (fun i v => P i (v - δ)) η (fun i => Y n i + δ) := by
  funext i
  simp only [ppStep, add_sub_cancel_right, smul_add, Finset.sum_add_distrib]
  have : ∑ i, w i • Y n i + ∑ i, w i • δ = X n := by rw [← hg n, ← Finset.sum_smul, hw1, one_smul]; abel
  rw [this, hY n i]; abel

/-- C48: `PPXA` returns. -/
theorem C48_ppxa_returns [NeZero m] (hf : ∀ i, ProxExact (fs i) (F i)) (hw : ∀ i, 0 < w i) (hτ : 0 < τ) (y0 : Fin m → E) (η : ℝ) (n : ℕ) (tol : ℝ)
    (mx : E → ℝ) : ∃ r, PPXA fs (some w) y0 τ η n tol mx = .ok r := by
  choose P hP _ using fun i => proxExact_map (hf i) (div_pos hτ (hw i))
  obtain ⟨X, Y, -, -, -, -, h⟩ := ppxa_traj (fun i => (hw i).ne') hP y0 η tol mx
  obtain ⟨k, -, xo, h1, -⟩ := h n
  exact ⟨_, h1⟩

lemma prox_cert (hF : ∀ i, (F i).Convex) (hw : ∀ i, 0 < w i) (hw1 : ∑ i, w i = 1) (hτ : 0 < τ) {P : Fin m → E → E}
    (hP : ∀ i v, IsProx (F i) (τ / w i) v (P i v)) {x δ : E} {c : Fin m → E} (hc : ∑ i, w i • c i = x - δ) (h : ∀ i, P i (c i) = x) :
    IsCertifiedSum F ((1 / τ) • δ) x fun i => (1 / (τ / w i)) • (c i - x) := by
  refine ⟨fun i => ?_, ?_⟩
  · have := subgrad_of_isProx (hF i) (div_pos hτ (hw i)) (hP i (c i))
    rwa [h i] at this
  · have : ∀ i, (1 / (τ / w i)) • (c i - x) = (1 / τ) • (w i • (c i - x)) := fun i => by rw [smul_smul]; congr 1; field_simp
    simp only [this]
    rw [← Finset.smul_sum, ← smul_neg]
    congr 1
    simp only [smul_sub, Finset.sum_sub_distrib]
    rw [hc, ← Finset.sum_smul, hw1, one_smul]; abel

/-- C48 (general starts): if an iteration leaves `x` and all `y_i` unchanged, the `x` reached minimises `∑ F_i` *plus the linear term* `⟪gap, x⟫ / τ`, where `gap`
is the difference of the plain and weighted means of the starting vectors. -/
theorem C48_ppxa_stationary_tilted [NeZero m] (hF : ∀ i, (F i).Convex) (hf : ∀ i, ProxExact (fs i) (F i)) (hw : ∀ i, 0 < w i) (hw1 : ∑ i, w i = 1)
    (hτ : 0 < τ) (hη : η ≠ 0) (y0 : Fin m → E) (n : ℕ) (mx : E → ℝ) (hmx : ∀ v, 0 ≤ mx v) (r r' : PPXAState E m)
    (hr : PPXA fs (some w) y0 τ η n 0 mx = .ok r) (hr' : PPXA fs (some w) y0 τ η (n + 1) 0 mx = .ok r') (hx : r'.x = r.x) (hy : r'.y = r.y) :
    ((sumObj F).addLinear ((1 / τ) • startGap w y0)).IsMin r'.x := by
  choose P hP hP' using fun i => proxExact_map (hf i) (div_pos hτ (hw i))
  obtain ⟨X, Y, hX0, hY0, hX, hY, h⟩ := ppxa_traj (fun i => (hw i).ne') hP y0 η 0 mx
  have hfull : ∀ n, ∃ xo, PPXA fs (some w) y0 τ η n 0 mx = .ok ⟨X n, xo, Y n, (List.range n).map fun i => X (i + 1)⟩ := fun n => by
    obtain ⟨k, hk, xo, h1, -, h3⟩ := h n
    rcases lt_or_eq_of_le hk with hlt | rfl
    · obtain ⟨j, -, hj⟩ := h3 hlt
      exact absurd hj (not_lt.2 (hmx _))
    · exact ⟨xo, h1⟩
  obtain ⟨xo, h1⟩ := hfull n
  obtain ⟨xo', h2⟩ := hfull (n + 1)
  rw [h1] at hr; rw [h2] at hr'
  cases hr; cases hr'
  simp only at hx hy ⊢
  have gap := ppxa_gap hw1 hX hY n
  have hδ : X 0 - ∑ i, w i • Y 0 i = startGap w y0 := by rw [hX0, hY0]; rfl
  have e1 : ∑ j, w j • P j (Y n j) = X n := by
    have := hX n
    rw [hx, left_eq_add, smul_eq_zero] at this
    exact sub_eq_zero.1 (this.resolve_left hη)
  have e2 : ∀ i, P i (Y n i) = X n := fun i => by
    have := hY n i
    rw [hy, left_eq_add, smul_eq_zero, e1, two_smul, add_sub_cancel_right] at this
    exact (sub_eq_zero.1 (this.resolve_left hη)).symm
  rw [hx]
  exact (prox_cert hF hw hw1 hτ hP' (c := Y n) (δ := startGap w y0) (by rw [← hδ, ← gap]; abel) e2).isMin

/-- C48 (partial: a single starting vector): stationary points minimise `∑ F_i`. -/
theorem C48_ppxa_stationary_partial [NeZero m] (hF : ∀ i, (F i).Convex) (hf : ∀ i, ProxExact (fs i) (F i)) (hw : ∀ i, 0 < w i) (hw1 : ∑ i, w i = 1)
    (hτ : 0 < τ) (hη : η ≠ 0) (x0 : E) (n : ℕ) (mx : E → ℝ) (hmx : ∀ v, 0 ≤ mx v) (r r' : PPXAState E m)
    (hr : PPXA fs (some w) (fun _ => x0) τ η n 0 mx = .ok r) (hr' : PPXA fs (some w) (fun _ => x0) τ η (n + 1) 0 mx = .ok r') (hx : r'.x = r.x)
    (hy : r'.y = r.y) : (sumObj F).IsMin r'.x := by
  have := C48_ppxa_stationary_tilted hF hf hw hw1 hτ hη (fun _ => x0) n mx hmx r r' hr hr' hx hy
  rw [startGap_single hw1, smul_zero] at this
  refine ⟨this.1, fun y hy => ?_⟩
  have := this.2 y hy
  simpa [XFun.addLinear] using this

/-- C48 (general starts): in finite dimension, for `0 < eta < 2` and `tol = 0`, if the tilted problem has a certified minimiser then the returned `x`
converge to a minimiser of `∑ F_i + ⟪gap, ·⟫ / τ`. -/
theorem C48_ppxa_converges_tilted [ProperSpace E] [NeZero m] (hF : ∀ i, (F i).Convex) (hf : ∀ i, ProxExact (fs i) (F i)) (hw : ∀ i, 0 < w i)
    (hw1 : ∑ i, w i = 1) (hτ : 0 < τ) (hη : 0 < η) (hη2 : η < 2) (y0 : Fin m → E) (mx : E → ℝ) (hmx : ∀ v, 0 ≤ mx v)
    (hsol : ∃ x s, IsCertifiedSum F ((1 / τ) • startGap w y0) x s) (R : ℕ → PPXAState E m)
    (hR : ∀ n, PPXA fs (some w) y0 τ η n 0 mx = .ok (R n)) :
    ∃ x, ((sumObj F).addLinear ((1 / τ) • startGap w y0)).IsMin x ∧ Tendsto (fun n => (R n).x) atTop (𝓝 x) := by
  choose P hP hP' using fun i => proxExact_map (hf i) (div_pos hτ (hw i))
  obtain ⟨X, Y, hX0, hY0, hX, hY, h⟩ := ppxa_traj (fun i => (hw i).ne') hP y0 η 0 mx
  have hRX : ∀ n, (R n).x = X n := fun n => by
    obtain ⟨k, hk, xo, h1, -, h3⟩ := h n
    rcases lt_or_eq_of_le hk with hlt | rfl
    · obtain ⟨j, -, hj⟩ := h3 hlt
      exact absurd hj (not_lt.2 (hmx _))
    · rw [hR] at h1; injection h1 with h1; rw [h1]
  set δ := startGap w y0 with hδ
  have gap : ∀ n, X n - ∑ i, w i • Y n i = δ := fun n => by rw [ppxa_gap hw1 hX hY n, hX0, hY0]; rfl
  have hstep := ppxa_step hw1 hY gap
  have firm : ∀ i, Firm fun v => P i (v - δ) := fun i => firm_shift (firm_prox (hF i) (div_pos hτ (hw i)) (hP' i)) δ
  have hne : ∃ c, ppStep w (fun i v => P i (v - δ)) η c = c := by
    obtain ⟨x, s, hs1, hs2⟩ := hsol
    refine ⟨fun i => x + δ + (τ / w i) • s i, pp_fixed_of hw1 fun i => ?_⟩
    have e1 : ∑ j, w j • (x + δ + (τ / w j) • s j) = x := by
      simp only [smul_add, Finset.sum_add_distrib, smul_smul]
      have : ∀ j, w j * (τ / w j) = τ := fun j => by have := (hw j).ne'; field_simp
      simp only [this]
      rw [← Finset.sum_smul, ← Finset.sum_smul, ← Finset.smul_sum, hs2, hw1, one_smul, one_smul, smul_neg, smul_smul, mul_one_div_cancel hτ.ne',
        one_smul]; abel
    rw [e1]
    have : IsProx (F i) (τ / w i) (x + δ + (τ / w i) • s i - δ) x := by
      have hp := div_pos hτ (hw i)
      refine isProx_of_subgrad hp ?_
      rw [show x + δ + (τ / w i) • s i - δ - x = (τ / w i) • s i by abel, smul_smul, one_div_mul_cancel hp.ne', one_smul]
      exact hs1 i
    exact IsProx.unique (hF i) (div_pos hτ (hw i)) this (hP' i _)
  obtain ⟨c, hc, hlim⟩ := pp_converges hw hw1 firm hη hη2 hne (fun n i => Y n i + δ) hstep
  have hc' := pp_fixed hw1 hη.ne' hc
  refine ⟨∑ j, w j • c j, (prox_cert hF hw hw1 hτ hP' (c := fun i => c i - δ) ?_ hc').isMin, ?_⟩
  · simp only [smul_sub, Finset.sum_sub_distrib]; rw [← Finset.sum_smul, hw1, one_smul]
  · have : ∀ n, (R n).x = ∑ j, w j • (Y n j + δ) := fun n => by
      simp only [smul_add, Finset.sum_add_distrib]
      rw [← Finset.sum_smul, hw1, one_smul, hRX, ← gap n]; abel
    simp only [this]
    exact tendsto_finsetSum _ fun j _ => ((tendsto_pi_nhds.1 hlim) j).const_smul (w j)

/-- C48 (partial: a single starting vector): convergence to a minimiser of `∑ F_i`, for all weights summing to one. -/
theorem C48_ppxa_converges_partial [ProperSpace E] [NeZero m] (hF : ∀ i, (F i).Convex) (hf : ∀ i, ProxExact (fs i) (F i)) (hw : ∀ i, 0 < w i)
    (hw1 : ∑ i, w i = 1) (hτ : 0 < τ) (hη : 0 < η) (hη2 : η < 2) (x0 : E) (mx : E → ℝ) (hmx : ∀ v, 0 ≤ mx v)
    (hsol : ∃ x s, IsCertifiedSum F 0 x s) (R : ℕ → PPXAState E m) (hR : ∀ n, PPXA fs (some w) (fun _ => x0) τ η n 0 mx = .ok (R n)) :
    ∃ x, (sumObj F).IsMin x ∧ Tendsto (fun n => (R n).x) atTop (𝓝 x) := by
  obtain ⟨x, h1, h2⟩ := C48_ppxa_converges_tilted hF hf hw hw1 hτ hη hη2 (fun _ => x0) mx hmx (by
    rw [startGap_single hw1, smul_zero]; exact hsol) R hR
  rw [startGap_single hw1, smul_zero] at h1
  refine ⟨x, ⟨h1.1, fun y hy => ?_⟩, h2⟩
  have := h1.2 y hy
  simpa [XFun.addLinear] using this

/-- C48 with the default weights: the returned `x` converge to a minimiser of `∑ F_i` for every start, a single vector or one per operator. -/
theorem C48_ppxa_default_weights [ProperSpace E] [NeZero m] (hF : ∀ i, (F i).Convex) (hf : ∀ i, ProxExact (fs i) (F i)) (hτ : 0 < τ) (hη : 0 < η) (hη2 : η < 2)
    (y0 : Fin m → E) (mx : E → ℝ) (hmx : ∀ v, 0 ≤ mx v) (hsol : ∃ x s, IsCertifiedSum F 0 x s) :
    ∃ R : ℕ → PPXAState E m, (∀ n, PPXA fs none y0 τ η n 0 mx = .ok (R n)) ∧ ∃ x, (sumObj F).IsMin x ∧ Tendsto (fun n => (R n).x) atTop (𝓝 x) := by
  have hm : (0 : ℝ) < m := Nat.cast_pos.2 (Nat.pos_of_ne_zero (NeZero.ne m))
  have hw : ∀ _ : Fin m, 0 < 1 / (m : ℝ) := fun _ => by positivity
  have hw1 : ∑ _i : Fin m, 1 / (m : ℝ) = 1 := by
    rw [Finset.sum_const, Finset.card_univ, Fintype.card_fin, nsmul_eq_mul]; field_simp
  have hret : ∀ n, ∃ r, PPXA fs none y0 τ η n 0 mx = .ok r := fun n => C48_ppxa_returns (w := fun _ => 1 / (m : ℝ)) hf hw hτ y0 η n 0 mx
  choose R hR using hret
  refine ⟨R, hR, ?_⟩
  obtain ⟨x, h1, h2⟩ := C48_ppxa_converges_tilted (w := fun _ => 1 / (m : ℝ)) hF hf hw hw1 hτ hη hη2 y0 mx hmx (by
    rw [startGap_uniform, smul_zero]; exact hsol) R hR
  rw [startGap_uniform, smul_zero] at h1
  refine ⟨x, ⟨h1.1, fun y hy => ?_⟩, h2⟩
  have := h1.2 y hy
  simpa [XFun.addLinear] using this

/-- C48 refuted for one starting vector per operator with unequal weights: for `F_i = ½‖·‖²` and starts with a non-zero gap, the returned `x` converge to
`-gap/(m τ)`, which is not the minimiser `0`. -/
theorem C48_ppxa_list_start_refuted [ProperSpace E] [NeZero m] (hf : ∀ i, ProxExact (fs i) (XFun.ofReal fun x => 1 / 2 * ‖x‖ ^ 2)) (hw : ∀ i, 0 < w i)
    (hw1 : ∑ i, w i = 1) (hτ : 0 < τ) (hη : 0 < η) (hη2 : η < 2) (y0 : Fin m → E) (hgap : startGap w y0 ≠ 0) (mx : E → ℝ) (hmx : ∀ v, 0 ≤ mx v)
    (R : ℕ → PPXAState E m) (hR : ∀ n, PPXA fs (some w) y0 τ η n 0 mx = .ok (R n)) :
    ∃ x, Tendsto (fun n => (R n).x) atTop (𝓝 x) ∧ ¬ (sumObj fun _ : Fin m => XFun.ofReal fun x : E => 1 / 2 * ‖x‖ ^ 2).IsMin x := by
  have hm : (0 : ℝ) < m := Nat.cast_pos.2 (Nat.pos_of_ne_zero (NeZero.ne m))
  have hconv : (XFun.ofReal fun x : E => 1 / 2 * ‖x‖ ^ 2).Convex := by
    refine convexOn_of_above (G := fun x => x) fun x y => ?_
    have : ‖y‖ ^ 2 = ‖x‖ ^ 2 + 2 * ⟪x, y - x⟫ + ‖y - x‖ ^ 2 := by
      conv_lhs => rw [show y = x + (y - x) by abel]
      rw [norm_add_sq_real]
    simp only [XFun.ofReal]
    rw [this]
    nlinarith [sq_nonneg ‖y - x‖]
  have sub : ∀ x : E, IsSubgrad (XFun.ofReal fun x : E => 1 / 2 * ‖x‖ ^ 2) x x := fun x => ⟨trivial, fun y _ => by
    have : ‖y‖ ^ 2 = ‖x‖ ^ 2 + 2 * ⟪x, y - x⟫ + ‖y - x‖ ^ 2 := by
      conv_lhs => rw [show y = x + (y - x) by abel]
      rw [norm_add_sq_real]
    simp only [XFun.ofReal]
    rw [this]
    nlinarith [sq_nonneg ‖y - x‖]⟩
  set v := (1 / τ) • startGap w y0 with hv
  have hv0 : v ≠ 0 := by rw [hv]; exact smul_ne_zero (by positivity) hgap
  obtain ⟨x, h1, h2⟩ := C48_ppxa_converges_tilted (fun _ => hconv) hf hw hw1 hτ hη hη2 y0 mx hmx
    ⟨-(1 / (m : ℝ)) • v, fun _ => -(1 / (m : ℝ)) • v, fun i => sub _, by
      rw [Finset.sum_const, Finset.card_univ, Fintype.card_fin, ← Nat.cast_smul_eq_nsmul ℝ, smul_smul, mul_neg, mul_one_div_cancel hm.ne', neg_one_smul]⟩ R hR
  refine ⟨x, h2, fun hmin => ?_⟩
  have hx0 : x = 0 := by
    have := hmin.2 0 (fun _ => trivial)
    simp only [sumObj, XFun.ofReal, norm_zero, Finset.sum_const, Finset.card_univ, Fintype.card_fin, nsmul_eq_mul] at this
    have h3 : ‖x‖ ^ 2 ≤ 0 := by
      by_contra hc
      push Not at hc
      have := mul_pos hm hc
      nlinarith
    exact norm_eq_zero.1 (pow_eq_zero_iff two_ne_zero |>.1 (le_antisymm h3 (sq_nonneg _)))
  subst hx0
  have h4 := h1.2 (-(1 / (m : ℝ)) • v) (fun _ => trivial)
  simp only [XFun.addLinear, sumObj, XFun.ofReal, norm_zero, inner_zero_right, Finset.sum_const, Finset.card_univ, Fintype.card_fin, nsmul_eq_mul,
    inner_smul_right, norm_smul, mul_pow, real_inner_self_eq_norm_sq, ← hv] at h4
  rw [Real.norm_eq_abs, sq_abs] at h4
  have h5 : (m : ℝ) * (1 / 2 * ((-(1 / (m : ℝ))) ^ 2 * ‖v‖ ^ 2)) + -(1 / (m : ℝ)) * ‖v‖ ^ 2 = -(‖v‖ ^ 2 / (2 * m)) := by field_simp; ring
  have h6 : 0 < ‖v‖ ^ 2 / (2 * m) := by have := norm_pos_iff.2 hv0; positivity
  have h7 : (m : ℝ) * (1 / 2 * 0 ^ 2) + 0 = 0 := by ring
  linarith

/-! ## ConsensusADMM -/

/-- The trajectory of `ConsensusADMM`. -/
lemma cons_traj [NeZero m] {P : Fin m → E → E} (hf : ∀ i v, (fs i).prox v τ = .ok (P i v)) (x0 : E) (tol : ℝ) (mx : E → ℝ) :
    ∃ (X : ℕ → E) (V Y : ℕ → Fin m → E), X 0 = x0 ∧ (∀ i, Y 0 i = 0) ∧ (∀ n i, V (n + 1) i = P i (X n - Y n i)) ∧
      (∀ n, X (n + 1) = (1 / (m : ℝ)) • ∑ i, V (n + 1) i) ∧ (∀ n i, Y (n + 1) i = Y n i + V (n + 1) i - X (n + 1)) ∧
      (∀ n, ∃ k ≤ n, ∃ xo, ConsensusADMM fs x0 τ n tol mx = .ok ⟨X k, xo, V k, Y k, (List.range k).map fun i => X (i + 1)⟩ ∧
        (∀ j, j + 1 < k → tol ≤ mx (X (j + 1) - X j)) ∧ (k < n → ∃ j, k = j + 1 ∧ mx (X (j + 1) - X j) < tol)) := by
  classical
  let nv : ConsState E m → Fin m → E := fun s i => P i (s.xbar - s.y i)
  let nx : ConsState E m → E := fun s => (1 / (m : ℝ)) • ∑ i, nv s i
  let ny : ConsState E m → Fin m → E := fun s i => s.y i + nv s i - nx s
  have hbody : ∀ i (s : ConsState E m), ConsensusADMM.body fs τ tol mx i s =
      if mx (nx s - s.xold) < tol then .ok (⟨nx s, s.xold, nv s, ny s, s.log ++ [nx s]⟩, true)
      else .ok (⟨nx s, nx s, nv s, ny s, s.log ++ [nx s]⟩, false) := by
    intro i s
    have : mapPy (fun i => (fs i).prox (s.xbar - s.y i) τ) = .ok (nv s) := mapPy_ok fun i => by rw [hf]
    unfold ConsensusADMM.body
    rw [this]
    simp only [Bind.bind, Except.bind]
    rw [if_neg (NeZero.ne m)]
    rfl
  let step : ConsState E m → ConsState E m := fun s => ⟨nx s, nx s, nv s, ny s, s.log ++ [nx s]⟩
  let S : ℕ → ConsState E m := fun n => Nat.rec ⟨x0, x0, fun _ => x0, fun _ => 0, []⟩ (fun _ s => step s) n
  have hS : ∀ n, S (n + 1) = step (S n) := fun n => rfl
  have hold : ∀ n, (S n).xold = (S n).xbar := fun n => by cases n <;> rfl
  have hlog : ∀ n, (S n).log = (List.range n).map fun i => (S (i + 1)).xbar := by
    intro n
    induction n with
    | zero => rfl
    | succ n ih => rw [List.range_succ, List.map_append, ← ih, hS]; rfl
  refine ⟨fun n => (S n).xbar, fun n => (S n).x, fun n => (S n).y, rfl, fun _ => rfl, fun n i => rfl, fun n => rfl, fun n i => rfl, fun n => ?_⟩
  have key : ∀ n i, ∃ k ≤ n, ∃ xo, forRange (ConsensusADMM.body fs τ tol mx) n i (S i) =
        .ok ⟨(S (i + k)).xbar, xo, (S (i + k)).x, (S (i + k)).y, (S (i + k)).log⟩ ∧
      (∀ j, j + 1 < k → tol ≤ mx ((S (i + j + 1)).xbar - (S (i + j)).xbar)) ∧
      (k < n → ∃ j, k = j + 1 ∧ mx ((S (i + j + 1)).xbar - (S (i + j)).xbar) < tol) := by
    intro n
    induction n with
    | zero => intro i; exact ⟨0, le_rfl, (S i).xold, rfl, by simp, by simp⟩
    | succ n ih =>
      intro i
      have hb := hbody i (S i)
      rw [hold i] at hb
      by_cases ht : mx (nx (S i) - (S i).xbar) < tol
      · rw [if_pos ht] at hb
        refine ⟨1, by omega, (S i).xbar, ?_, fun j hj => by omega, fun _ => ⟨0, rfl, ht⟩⟩
        simp only [forRange, hb, if_true]
        rfl
      · rw [if_neg ht] at hb
        obtain ⟨k, hk, xo, h1, h2, h3⟩ := ih (i + 1)
        refine ⟨k + 1, by omega, xo, ?_, ?_, ?_⟩
        · simp only [forRange, hb, Bool.false_eq_true, if_false]
          rw [show i + (k + 1) = i + 1 + k by omega, ← h1]
        · intro j hj
          cases j with
          | zero => exact not_lt.1 ht
          | succ j =>
            have := h2 j (by omega)
            rwa [show i + (j + 1) = i + 1 + j by omega]
        · intro hk'
          obtain ⟨j, hj, hj'⟩ := h3 (by omega)
          exact ⟨j + 1, by omega, by rwa [show i + (j + 1) = i + 1 + j by omega]⟩
  obtain ⟨k, hk, xo, h1, h2, h3⟩ := key n 0
  simp only [zero_add] at h1 h2 h3
  exact ⟨k, hk, xo, by rw [← hlog k]; exact h1, h2, h3⟩

/-- C49: `ConsensusADMM` returns (for a non-empty list; an empty one is rejected as soon as an iteration is performed). -/
theorem C49_cons_returns (hf : ∀ i, ProxExact (fs i) (F i)) (hτ : 0 < τ) (x0 : E) (n : ℕ) (tol : ℝ) (mx : E → ℝ) :
    (m ≠ 0 → ∃ r, ConsensusADMM fs x0 τ n tol mx = .ok r) ∧ (m = 0 → 0 < n → ConsensusADMM fs x0 τ n tol mx = .error .valueError) := by
  constructor
  · intro hm
    have : NeZero m := ⟨hm⟩
    choose P hP _ using fun i => proxExact_map (hf i) hτ
    obtain ⟨X, V, Y, -, -, -, -, -, h⟩ := cons_traj hP x0 tol mx
    obtain ⟨k, -, xo, h1, -⟩ := h n
    exact ⟨_, h1⟩
  · rintro rfl hn
    obtain ⟨k, rfl⟩ := Nat.exists_eq_succ_of_ne_zero hn.ne'
    simp [ConsensusADMM, forRange, ConsensusADMM.body, mapPy, Bind.bind, Except.bind]

lemma cons_sum_zero [NeZero m] {X : ℕ → E} {V Y : ℕ → Fin m → E} (hY0 : ∀ i, Y 0 i = 0) (hX : ∀ n, X (n + 1) = (1 / (m : ℝ)) • ∑ i, V (n + 1) i)
    (hY : ∀ n i, Y (n + 1) i = Y n i + V (n + 1) i - X (n + 1)) (n : ℕ) : ∑ i, Y n i = 0 := by
  have hm : (m : ℝ) ≠ 0 := Nat.cast_ne_zero.2 (NeZero.ne m)
  induction n with
  | zero => simp [hY0]
  | succ n ih =>
    simp only [hY, Finset.sum_sub_distrib, Finset.sum_add_distrib]
    rw [ih, hX, Finset.sum_const, Finset.card_univ, Fintype.card_fin, ← Nat.cast_smul_eq_nsmul ℝ, smul_smul, mul_one_div_cancel hm, one_smul]; abel

/-- C49: after every run, of any length and with any tolerance, the dual variables sum to zero and `xbar` is the mean of the blocks (once an iteration has been
performed). -/
theorem C49_cons_dual_sum [NeZero m] (hf : ∀ i, ProxExact (fs i) (F i)) (hτ : 0 < τ) (x0 : E) (n : ℕ) (tol : ℝ) (mx : E → ℝ) (r : ConsState E m)
    (hr : ConsensusADMM fs x0 τ n tol mx = .ok r) : ∑ i, r.y i = 0 ∧ (r.log ≠ [] → r.xbar = (1 / (m : ℝ)) • ∑ i, r.x i) := by
  choose P hP _ using fun i => proxExact_map (hf i) hτ
  obtain ⟨X, V, Y, hX0, hY0, hV, hX, hY, h⟩ := cons_traj hP x0 tol mx
  obtain ⟨k, -, xo, h1, -⟩ := h n
  rw [h1] at hr
  cases hr
  refine ⟨cons_sum_zero hY0 hX hY k, fun hne => ?_⟩
  cases k with
  | zero => exact absurd rfl hne
  | succ k => exact hX k

/-- C49: if an iteration leaves `xbar` and the dual variables unchanged, `xbar` minimises `∑ F_i`. -/
theorem C49_cons_stationary [NeZero m] (hF : ∀ i, (F i).Convex) (hf : ∀ i, ProxExact (fs i) (F i)) (hτ : 0 < τ) (x0 : E) (n : ℕ) (mx : E → ℝ)
    (hmx : ∀ v, 0 ≤ mx v) (r r' : ConsState E m) (hr : ConsensusADMM fs x0 τ n 0 mx = .ok r) (hr' : ConsensusADMM fs x0 τ (n + 1) 0 mx = .ok r')
    (hx : r'.xbar = r.xbar) (hy : r'.y = r.y) : (sumObj F).IsMin r'.xbar := by
  choose P hP hP' using fun i => proxExact_map (hf i) hτ
  obtain ⟨X, V, Y, hX0, hY0, hV, hX, hY, h⟩ := cons_traj hP x0 0 mx
  have hfull : ∀ n, ∃ xo, ConsensusADMM fs x0 τ n 0 mx = .ok ⟨X n, xo, V n, Y n, (List.range n).map fun i => X (i + 1)⟩ := fun n => by
    obtain ⟨k, hk, xo, h1, -, h3⟩ := h n
    rcases lt_or_eq_of_le hk with hlt | rfl
    · obtain ⟨j, -, hj⟩ := h3 hlt
      exact absurd hj (not_lt.2 (hmx _))
    · exact ⟨xo, h1⟩
  obtain ⟨xo, h1⟩ := hfull n
  obtain ⟨xo', h2⟩ := hfull (n + 1)
  rw [h1] at hr; rw [h2] at hr'
  cases hr; cases hr'
  simp only at hx hy ⊢
  have e1 : ∀ i, P i (X n - Y n i) = X (n + 1) := fun i => by
    have := hY n i
    rw [hy, add_sub_assoc, left_eq_add, sub_eq_zero, hV] at this
    exact this
  have hcert : IsCertifiedSum F 0 (X (n + 1)) fun i => (1 / τ) • (X n - Y n i - X (n + 1)) := by
    refine ⟨fun i => ?_, ?_⟩
    · have := subgrad_of_isProx (hF i) hτ (hP' i (X n - Y n i))
      rwa [e1 i] at this
    · rw [← Finset.smul_sum, hx]
      have : ∀ i, X n - Y n i - X n = -Y n i := fun i => by abel
      simp only [this, Finset.sum_neg_distrib]
      rw [cons_sum_zero hY0 hX hY n, neg_zero, smul_zero]
  have := hcert.isMin
  refine ⟨this.1, fun y hy => ?_⟩
  have := this.2 y hy
  simpa [XFun.addLinear] using this

/-- C49: convergence.  In finite dimension with `tol = 0`, if `∑ F_i` has a certified minimiser the returned `xbar` converge to a minimiser. -/
theorem C49_cons_converges [ProperSpace E] [NeZero m] (hF : ∀ i, (F i).Convex) (hf : ∀ i, ProxExact (fs i) (F i)) (hτ : 0 < τ) (x0 : E) (mx : E → ℝ)
    (hmx : ∀ v, 0 ≤ mx v) (hsol : ∃ x s, IsCertifiedSum F 0 x s) (R : ℕ → ConsState E m) (hR : ∀ n, ConsensusADMM fs x0 τ n 0 mx = .ok (R n)) :
    ∃ x, (sumObj F).IsMin x ∧ Tendsto (fun n => (R n).xbar) atTop (𝓝 x) := by
  have hm : (0 : ℝ) < m := Nat.cast_pos.2 (Nat.pos_of_ne_zero (NeZero.ne m))
  choose P hP hP' using fun i => proxExact_map (hf i) hτ
  obtain ⟨X, V, Y, hX0, hY0, hV, hX, hY, h⟩ := cons_traj hP x0 0 mx
  have hRX : ∀ n, (R n).xbar = X n := fun n => by
    obtain ⟨k, hk, xo, h1, -, h3⟩ := h n
    rcases lt_or_eq_of_le hk with hlt | rfl
    · obtain ⟨j, -, hj⟩ := h3 hlt
      exact absurd hj (not_lt.2 (hmx _))
    · rw [hR] at h1; injection h1 with h1; rw [h1]
  set u : Fin m → ℝ := fun _ => 1 / (m : ℝ) with hu
  have hu0 : ∀ i, 0 < u i := fun _ => by positivity
  have hu1 : ∑ i, u i = 1 := by rw [hu, Finset.sum_const, Finset.card_univ, Fintype.card_fin, nsmul_eq_mul, mul_one_div_cancel hm.ne']
  have hS := cons_sum_zero hY0 hX hY
  set Z : ℕ → Fin m → E := fun n i => X n - Y n i with hZ
  have hmean : ∀ n, ∑ j, u j • Z n j = X n := fun n => by
    simp only [hZ, smul_sub, Finset.sum_sub_distrib]
    rw [← Finset.sum_smul, hu1, one_smul, hu]
    simp only
    rw [← Finset.smul_sum, hS n, smul_zero, sub_zero]
  have hstep : ∀ n, Z (n + 1) = ppStep u P 1 (Z n) := fun n => by
    funext i
    simp only [ppStep]
    rw [hmean n, one_smul]
    have e1 : ∑ j, u j • P j (Z n j) = X (n + 1) := by
      rw [hX n, Finset.smul_sum]
      refine Finset.sum_congr rfl fun j _ => ?_
      rw [hV]
    rw [e1]
    have e2 : P i (Z n i) = V (n + 1) i := (hV n i).symm
    rw [e2]
    simp only [hZ]
    rw [hY n i, two_smul]; abel
  have firm : ∀ i, Firm (P i) := fun i => firm_prox (hF i) hτ (hP' i)
  -- prox with step `τ = (τ/m)/(1/m)`
  set τ' := τ / m with hτ'
  have hτ'0 : 0 < τ' := by positivity
  have hstepτ : ∀ i : Fin m, τ' / u i = τ := fun i => by rw [hτ', hu]; field_simp
  have hne : ∃ c, ppStep u P 1 c = c := by
    obtain ⟨x, s, hs1, hs2⟩ := hsol
    refine ⟨fun i => x + τ • s i, pp_fixed_of hu1 fun i => ?_⟩
    have e1 : ∑ j, u j • (x + τ • s j) = x := by
      have e : ∑ j, u j • (τ • s j) = (1 / (m : ℝ)) • τ • ∑ j, s j := by rw [Finset.smul_sum, Finset.smul_sum]
      simp only [smul_add, Finset.sum_add_distrib]
      rw [← Finset.sum_smul, hu1, one_smul, e, hs2, neg_zero, smul_zero, smul_zero, add_zero]
    rw [e1]
    have : IsProx (F i) τ (x + τ • s i) x := by
      refine isProx_of_subgrad hτ ?_
      rw [add_sub_cancel_left, smul_smul, one_div_mul_cancel hτ.ne', one_smul]
      exact hs1 i
    exact IsProx.unique (hF i) hτ this (hP' i _)
  obtain ⟨c, hc, hlim⟩ := pp_converges hu0 hu1 firm one_pos (by norm_num) hne Z hstep
  have hc' := pp_fixed hu1 one_ne_zero hc
  have hcert := prox_cert (δ := 0) (x := ∑ j, u j • c j) hF hu0 hu1 hτ'0 (P := P) (fun i v => by rw [hstepτ i]; exact hP' i v) (c := c) (sub_zero _).symm hc'
  have hmin := hcert.isMin
  refine ⟨∑ j, u j • c j, ⟨hmin.1, fun y hy => ?_⟩, ?_⟩
  · have := hmin.2 y hy
    simpa [XFun.addLinear] using this
  · have e : ∀ n, (R n).xbar = ∑ j, u j • Z n j := fun n => by rw [hRX, hmean]
    simp only [e]
    exact tendsto_finsetSum _ fun j _ => ((tendsto_pi_nhds.1 hlim) j).const_smul (u j)

/-- The hypotheses of C48 and C49 are met by any number of L1 norms, certified at zero. -/
example {ι : Type} [Fintype ι] : ∃ (fs : Fin 3 → ProxOp (Vec ι)) (F : Fin 3 → XFun (Vec ι)), (∀ i, (F i).Convex) ∧ (∀ i, ProxExact (fs i) (F i)) ∧
    ∃ x s, IsCertifiedSum F 0 x s := by
  refine ⟨fun _ => L1 1 none, _, fun _ => l1_convex, fun _ => l1_proxExact, 0, fun _ => 0, fun i => ⟨trivial, fun y _ => ?_⟩, by simp⟩
  simp only [XFun.ofReal, inner_zero_left, PiLp.zero_apply, sub_zero, abs_zero, Finset.sum_const_zero, one_mul, add_zero]
  exact Finset.sum_nonneg fun i _ => abs_nonneg _

/-- A start with a gap: weights `1/4, 3/4` and starts `x`, `0`. -/
example (x : E) (hx : x ≠ 0) : startGap (m := 2) ![1 / 4, 3 / 4] ![x, 0] ≠ 0 := by
  simp only [startGap, Fin.sum_univ_two, Matrix.cons_val_zero, Matrix.cons_val_one, smul_zero, add_zero, Nat.cast_ofNat]
  rw [← sub_smul]
  exact smul_ne_zero (by norm_num) hx

end Verif
