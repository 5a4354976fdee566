import Verif.Props.Sum
import Verif.Lemmas.Dykstra

/-! # C37, C38: convergence of Dykstra's iterations for closed convex functions

No certificate (constraint qualification) is assumed here: only that the functions are closed and have a common point of finite value. -/

open scoped RealInnerProductSpace
open Filter Topology

set_option linter.unusedSectionVars false

namespace Verif

variable {E : Type} [NormedAddCommGroup E] [InnerProductSpace ℝ E] {m : ℕ}

lemma sumObj_two (F : Fin 2 → XFun E) : sumObj F = (F 0).add (F 1) := by
  simp only [sumObj, XFun.add, Fin.sum_univ_two, Fin.forall_fin_two]
  rfl

lemma isUniqueProx_of_scaled {F : Fin m → XFun E} {τ : ℝ} (hτ : 0 < τ) {x0 p : E} (h : IsSubgrad (sumObj fun j => (F j).smul τ) p (x0 - p)) :
    IsUniqueProx (sumObj F) τ x0 p := by
  refine isUniqueProx_of_subgrad hτ ⟨h.1, fun y hy => ?_⟩
  have h1 := h.2 y hy
  have e : ∀ x, (sumObj fun j => (F j).smul τ).val x = τ * (sumObj F).val x := fun x => by simp only [sumObj, XFun.smul, Finset.mul_sum]
  rw [e, e] at h1
  rw [real_inner_smul_left]
  have h2 : (sumObj F).val p + 1 / τ * ⟪x0 - p, y - p⟫ = 1 / τ * (τ * (sumObj F).val p + ⟪x0 - p, y - p⟫) := by field_simp
  rw [h2, one_div, inv_mul_le_iff₀ hτ]
  exact h1

lemma smul_subgrad_of_isProx {F : XFun E} (hF : F.Convex) {τ : ℝ} (hτ : 0 < τ) {x p : E} (h : IsProx F τ x p) : IsSubgrad (F.smul τ) p (x - p) := by
  have h1 := subgrad_of_isProx hF hτ h
  refine ⟨h1.1, fun y hy => ?_⟩
  have h3 := mul_le_mul_of_nonneg_left (h1.2 y hy) hτ.le
  rw [real_inner_smul_left, mul_add, ← mul_assoc, mul_one_div_cancel hτ.ne', one_mul] at h3
  exact h3

/-- C37 (two operators): for closed convex `F`, `G` with a common point of finite value, the points computed with a zero tolerance converge to the proximal
point of `F + G` at the input. -/
theorem C37_two_converges_closed [ProperSpace E] {F G : XFun E} {τ : ℝ} {step1 step2 : E → Py E} (hF : F.Convex) (hG : G.Convex) (hFc : F.Closed) (hGc : G.Closed)
    (hτ : 0 < τ) (h1 : ∀ v, ∃ p, step1 v = .ok p ∧ IsProx F τ v p) (h2 : ∀ v, ∃ p, step2 v = .ok p ∧ IsProx G τ v p)
    (hne : (F.dom ∩ G.dom).Nonempty) (x0 : E) (mx : E → ℝ) (hmx : ∀ v, 0 ≤ mx v) :
    ∃ c, IsUniqueProx (F.add G) τ x0 c ∧
      ∃ R : ℕ → DykState E, (∀ n, dykstraTwo x0 step1 step2 n 0 mx = .ok (R n)) ∧ Tendsto (fun n => (R n).x) atTop (𝓝 c) := by
  choose P hP hP' using h1
  choose Q hQ hQ' using h2
  obtain ⟨X, p, q, hX0, hp0, hq0, hp, hX, hq, h⟩ := dyk_traj hP hQ x0 mx hmx
  choose yo hyo using h
  obtain ⟨c0, hc0⟩ := hne
  have hrun : DykRun (fun j => ((![F, G] : Fin 2 → XFun E) j).smul τ) x0 (fun k i => if i = 0 then X k else if i = 1 then P (X k + p k) else X (k + 1))
      (fun k => ![p k, q k]) := by
    refine ⟨by simpa using hX0, fun j => by fin_cases j <;> simp [hp0, hq0], fun k => by simp, fun k j => ?_, fun k j => ?_⟩
    · fin_cases j
      · simpa using hp k
      · simpa using hq k
    · fin_cases j
      · have := smul_subgrad_of_isProx hF hτ (hP' (X k + p k))
        simp only [Fin.zero_eta, Fin.isValue, Matrix.cons_val_zero, Fin.val_zero, zero_add, one_ne_zero, if_false, if_true]
        rwa [hp k, add_comm (p k)]
      · have := smul_subgrad_of_isProx hG hτ (hQ' (P (X k + p k) + q k))
        simp only [Fin.mk_one, Fin.isValue, Matrix.cons_val_one, Fin.val_one, Nat.reduceAdd, OfNat.ofNat_ne_zero, OfNat.ofNat_ne_one, if_false]
        rw [hq k, add_comm (q k), hX k]
        exact this
  obtain ⟨c, hc, hsub⟩ := dyk_converges hrun (fun j => by fin_cases j; exacts [smul_closed hFc hτ, smul_closed hGc hτ]) (c0 := c0)
    (fun j => by fin_cases j; exacts [hc0.1, hc0.2])
  have hu := isUniqueProx_of_scaled hτ hsub
  rw [sumObj_two] at hu
  exact ⟨c, hu, fun n => ⟨X n, yo n, p n, q n⟩, hyo, by simpa using hc⟩

/-! ## The weighted variant, as a two set problem on a product space -/

section weighted
variable {W : Fin m → ℝ}

/-- The diagonal embedding, scaled by the square roots of the weights. -/
noncomputable def diagEmb (W : Fin m → ℝ) (x : E) : PiLp 2 fun _ : Fin m => E := WithLp.toLp 2 fun i => Real.sqrt (W i) • x

lemma diagEmb_inner (hW : ∀ i, 0 < W i) (z : Fin m → E) (x : E) :
    ⟪(WithLp.toLp 2 fun i => Real.sqrt (W i) • z i : PiLp 2 fun _ : Fin m => E), diagEmb W x⟫ = ⟪∑ i, W i • z i, x⟫ := by
  rw [PiLp.inner_apply, sum_inner]
  refine Finset.sum_congr rfl fun i _ => ?_
  simp only [diagEmb]
  rw [real_inner_smul_left, inner_smul_right, real_inner_smul_left, ← mul_assoc, Real.mul_self_sqrt (hW i).le]

lemma diagEmb_sub (x y : E) : diagEmb W (x - y) = diagEmb W x - diagEmb W y := by
  ext i
  simp [diagEmb, smul_sub]

/-- `∑ W_i t_i F_i` of the components. -/
noncomputable def prodObj (W t : Fin m → ℝ) (F : Fin m → XFun E) : XFun (PiLp 2 fun _ : Fin m => E) where
  dom := {a | ∀ i, (1 / Real.sqrt (W i)) • a i ∈ (F i).dom}
  val := fun a => ∑ i, W i * t i * (F i).val ((1 / Real.sqrt (W i)) • a i)

lemma closed_sum {H : Type*} [NormedAddCommGroup H] [InnerProductSpace ℝ H] {F : Fin m → XFun H} (hF : ∀ i, (F i).Closed)
    (hlow : ∀ i, ∃ p s, IsSubgrad (F i) p s) : (sumObj F).Closed := by
  choose q s hqs using hlow
  unfold XFun.Closed
  rw [← isOpen_compl_iff, isOpen_iff_mem_nhds]
  rintro ⟨x, r⟩ hx
  -- every function is bounded below near `x`
  have hb : ∀ i, ∀ᶠ y in 𝓝 x, y ∈ (F i).dom → (F i).val (q i) + ⟪s i, x - q i⟫ - 1 < (F i).val y := by
    intro i
    have hc : Continuous fun y => (F i).val (q i) + ⟪s i, y - q i⟫ := by fun_prop
    filter_upwards [(hc.tendsto x).eventually (lt_mem_nhds (show (F i).val (q i) + ⟪s i, x - q i⟫ - 1 < _ from sub_one_lt _))] with y hy hyd
    exact lt_of_lt_of_le hy ((hqs i).2 y hyd)
  have hfst : Tendsto (fun p : H × ℝ => p.1) (𝓝 (x, r)) (𝓝 x) := continuous_fst.tendsto (x, r)
  have hsnd : ∀ ε, 0 < ε → ∀ᶠ p : H × ℝ in 𝓝 (x, r), p.2 < r + ε := fun ε hε =>
    (continuous_snd.tendsto (x, r)).eventually (gt_mem_nhds (by simpa using hε))
  by_cases hd : ∀ i, x ∈ (F i).dom
  · have hlt : r < ∑ i, (F i).val x := by
      by_contra hc
      exact hx ⟨hd, not_lt.1 hc⟩
    set ε := (∑ i, (F i).val x - r) / (m + 2) with hε
    have hε0 : 0 < ε := div_pos (by linarith) (by positivity)
    have h1 : ∀ i, ∀ᶠ y in 𝓝 x, y ∈ (F i).dom → (F i).val x - ε < (F i).val y := fun i => closed_lsc (hF i) (by linarith)
    filter_upwards [hfst.eventually (eventually_all.2 h1), hsnd ε hε0] with p hp hp2 hmem
    have h2 := Finset.sum_le_sum fun i (_ : i ∈ Finset.univ) => (hp i (hmem.1 i)).le
    rw [Finset.sum_sub_distrib, Finset.sum_const, Finset.card_univ, Fintype.card_fin, nsmul_eq_mul] at h2
    have h3 : ∑ i, (F i).val p.1 ≤ p.2 := hmem.2
    have h4 : ε * (m + 2) = ∑ i, (F i).val x - r := by rw [hε]; field_simp
    nlinarith
  · push Not at hd
    obtain ⟨j, hj⟩ := hd
    have h1 := closed_lsc_out (hF j) hj (r + 1 - ∑ i, ((F i).val (q i) + ⟪s i, x - q i⟫ - 1) + ((F j).val (q j) + ⟪s j, x - q j⟫ - 1))
    filter_upwards [hfst.eventually (eventually_all.2 hb), hfst.eventually h1, hsnd 1 one_pos] with p hp hpj hp2 hmem
    have h2 := Finset.single_le_sum (f := fun i => (F i).val p.1 - ((F i).val (q i) + ⟪s i, x - q i⟫ - 1)) (fun i _ => by
      have := hp i (hmem.1 i); linarith) (Finset.mem_univ j)
    rw [Finset.sum_sub_distrib] at h2
    have h3 : ∑ i, (F i).val p.1 ≤ p.2 := hmem.2
    have h4 := hpj (hmem.1 j)
    linarith

lemma closed_comp {H : Type*} [NormedAddCommGroup H] [InnerProductSpace ℝ H] {F : XFun E} (hF : F.Closed) {A : H → E} (hA : Continuous A) : (F.comp A).Closed := by
  have : {p : H × ℝ | p.1 ∈ (F.comp A).dom ∧ (F.comp A).val p.1 ≤ p.2} = (fun p : H × ℝ => (A p.1, p.2)) ⁻¹' {p : E × ℝ | p.1 ∈ F.dom ∧ F.val p.1 ≤ p.2} := rfl
  unfold XFun.Closed
  rw [this]
  exact IsClosed.preimage (by fun_prop) hF

end weighted

section par
variable {proxs : Fin m → E → ℝ → Py E} {F : Fin m → XFun E} {w t : Fin m → ℝ}

/-- C37 (weighted variant): for closed convex functions with a common point of finite value, positive weights and steps, the points computed with a zero tolerance converge
to the proximal point of `∑ (w_i t_i / ∑ w) F_i` at the input. -/
theorem C37_weighted_converges_closed [ProperSpace E] [NeZero m] (hF : ∀ i, (F i).Convex) (hcl : ∀ i, (F i).Closed) (hw : ∀ i, 0 < w i) (ht : ∀ i, 0 < t i)
    (hP : ∀ i v, ∃ p, proxs i v (t i) = .ok p ∧ IsProx (F i) (t i) v p) (hne : ∃ c, ∀ i, c ∈ (F i).dom) (x0 : E) (mx : E → ℝ) (hmx : ∀ v, 0 ≤ mx v) :
    ∃ c, IsUniqueProx (sumObj fun i => (F i).smul (w i * t i / ∑ j, w j)) 1 x0 c ∧
      ∃ R : ℕ → ParState E m, (∀ n, parallelDykstraProx x0 proxs (List.ofFn w) (List.ofFn t) n 0 mx = .ok (R n)) ∧ Tendsto (fun n => (R n).x) atTop (𝓝 c) := by
  choose P hP1 hP2 using hP
  have hm : 0 < ∑ j, w j := Finset.sum_pos (fun i _ => hw i) ⟨0, Finset.mem_univ _⟩
  set W : Fin m → ℝ := fun i => w i / ∑ j, w j with hW
  have hW0 : ∀ i, 0 < W i := fun i => div_pos (hw i) hm
  have hW1 : ∑ i, W i = 1 := by rw [hW, ← Finset.sum_div, div_self hm.ne']
  have hq0 : ∀ i, 0 < Real.sqrt (W i) := fun i => Real.sqrt_pos.2 (hW0 i)
  let nxt : ParState E m → ParState E m := fun s =>
    ⟨∑ i, W i • P i (s.z i), fun i => s.z i + (∑ i, W i • P i (s.z i)) - P i (s.z i), some fun i => P i (s.z i)⟩
  have hbody : ∀ i (s : ParState E m), par.body proxs (normalise (List.ofFn w)) (List.ofFn t) 0 mx i s = .ok (nxt s, false) := by
    intro i s
    have e1 : mapPy (par.proxAt proxs (List.ofFn t) s.z) = .ok fun i => P i (s.z i) := by
      refine mapPy_ok fun i => ?_
      simp only [par.proxAt, List.getElem?_ofFn, i.2, dif_pos]
      exact hP1 i _
    have e2 : ∑ i : Fin m, (normalise (List.ofFn w)).getD i 0 • P i (s.z i) = ∑ i, W i • P i (s.z i) :=
      Finset.sum_congr rfl fun i _ => by rw [normalise_ofFn]
    unfold par.body
    rw [e1]
    simp only [Bind.bind, Except.bind, Pure.pure, Except.pure, normalise_length, List.length_ofFn, ne_eq, not_true_eq_false, if_false, nxt]
    rw [e2, decide_eq_false (not_lt.2 (hmx _))]
  obtain ⟨S, h0, -, h3, h4⟩ := forRange_traj_nobreak (par.body proxs (normalise (List.ofFn w)) (List.ofFn t) 0 mx) (fun _ => True) (fun _ s s' => s' = nxt s)
    (fun i s _ => ⟨_, hbody i s, trivial, rfl⟩) ⟨x0, fun _ => x0, none⟩ trivial
  have hR : ∀ n, parallelDykstraProx x0 proxs (List.ofFn w) (List.ofFn t) n 0 mx = .ok (S n) := fun n => by
    unfold parallelDykstraProx
    rw [if_neg (by rw [ofFn_sum]; exact hm.ne'), h4 n]
  have hcons : ∀ n, ∑ i, W i • (S n).z i = x0 := fun n => by
    have := C37_weighted_conserved proxs x0 (List.ofFn w) (List.ofFn t) (by simp) n 0 mx (S n) (hR n)
    rw [← this]
    refine Finset.sum_congr rfl fun i _ => ?_
    rw [ofFn_sum]; simp [hW]
  have hx : ∀ n, (S (n + 1)).x = ∑ i, W i • P i ((S n).z i) := fun n => by rw [h3 n]
  have hz : ∀ n i, (S (n + 1)).z i = (S n).z i + (S (n + 1)).x - P i ((S n).z i) := fun n i => by rw [h3 n]
  obtain ⟨c0, hc0⟩ := hne
  set D : Set (PiLp 2 fun _ : Fin m => E) := Set.range (diagEmb W) with hD
  set V : ℕ → PiLp 2 fun _ : Fin m => E := fun n => WithLp.toLp 2 fun i => Real.sqrt (W i) • P i ((S n).z i) with hV
  have hVi : ∀ n i, (1 / Real.sqrt (W i)) • V n i = P i ((S n).z i) := fun n i => by
    simp only [hV]; rw [smul_smul, one_div_mul_cancel (hq0 i).ne', one_smul]
  have hrun : DykRun (![prodObj W t F, XFun.indicator D] : Fin 2 → XFun (PiLp 2 fun _ : Fin m => E)) (diagEmb W x0)
      (fun k i => if i = 0 then diagEmb W (S k).x else if i = 1 then V k else diagEmb W (S (k + 1)).x)
      (fun k => ![WithLp.toLp 2 fun i => Real.sqrt (W i) • ((S k).z i - (S k).x), WithLp.toLp 2 fun i => Real.sqrt (W i) • (x0 - (S k).z i)]) := by
    refine ⟨by simp [h0], fun j => by fin_cases j <;> (simp [h0]; rfl), fun k => by simp, fun k j => ?_, fun k j => ?_⟩
    · fin_cases j
      · simp only [Fin.zero_eta, Fin.isValue, Matrix.cons_val_zero, Fin.val_zero, zero_add, one_ne_zero, if_false, if_true]
        ext i
        simp only [diagEmb, hV, PiLp.add_apply, PiLp.sub_apply]
        rw [hz k i, ← smul_add, ← smul_sub]
        congr 1; abel
      · simp only [Fin.mk_one, Fin.isValue, Matrix.cons_val_one, Fin.val_one, Nat.reduceAdd, OfNat.ofNat_ne_zero, OfNat.ofNat_ne_one, if_false, one_ne_zero, if_true, Matrix.cons_val_fin_one]
        ext i
        simp only [diagEmb, hV, PiLp.add_apply, PiLp.sub_apply]
        rw [hz k i, ← smul_add, ← smul_sub]
        congr 1; abel
    · fin_cases j
      · simp only [Fin.zero_eta, Fin.isValue, Matrix.cons_val_zero, Fin.val_zero, zero_add, one_ne_zero, if_false, if_true]
        refine ⟨fun i => by rw [hVi]; exact (hP2 i _).1, fun y hy => ?_⟩
        simp only [prodObj, hVi]
        rw [PiLp.inner_apply, ← Finset.sum_add_distrib]
        refine Finset.sum_le_sum fun i _ => ?_
        have h5 := smul_subgrad_of_isProx (hF i) (ht i) (hP2 i ((S k).z i))
        have h6 := mul_le_mul_of_nonneg_left (h5.2 _ (hy i)) (hW0 i).le
        simp only [XFun.smul] at h6
        change _ + ⟪Real.sqrt (W i) • ((S (k + 1)).z i - (S (k + 1)).x), (y - V k) i⟫ ≤ _
        rw [hz k i, show (S k).z i + (S (k + 1)).x - P i ((S k).z i) - (S (k + 1)).x = (S k).z i - P i ((S k).z i) by abel]
        have h7 : ⟪Real.sqrt (W i) • ((S k).z i - P i ((S k).z i)), (y - V k) i⟫ =
            W i * ⟪(S k).z i - P i ((S k).z i), (1 / Real.sqrt (W i)) • y i - P i ((S k).z i)⟫ := by
          rw [PiLp.sub_apply, ← hVi k i, ← smul_sub, inner_smul_right, real_inner_smul_left, ← mul_assoc]
          congr 1
          rw [mul_one_div]
          nth_rewrite 2 [← Real.mul_self_sqrt (hW0 i).le]
          rw [mul_div_assoc, div_self (hq0 i).ne', mul_one]
        rw [h7]
        linarith
      · simp only [Fin.mk_one, Fin.isValue, Matrix.cons_val_one, Fin.val_one, Nat.reduceAdd, OfNat.ofNat_ne_zero, OfNat.ofNat_ne_one, if_false, Matrix.cons_val_fin_one]
        refine ⟨⟨_, rfl⟩, ?_⟩
        rintro _ ⟨y, rfl⟩
        simp only [XFun.indicator, zero_add]
        rw [← diagEmb_sub, diagEmb_inner hW0]
        simp only [smul_sub, Finset.sum_sub_distrib]
        rw [hcons, ← Finset.sum_smul, hW1, one_smul, sub_self, inner_zero_left]
  have hprodcl : (prodObj W t F).Closed := by
    have e : prodObj W t F = sumObj fun i => ((F i).smul (W i * t i)).comp fun a : PiLp 2 fun _ : Fin m => E => (1 / Real.sqrt (W i)) • a i := rfl
    rw [e]
    refine closed_sum (fun i => closed_comp (smul_closed (hcl i) (mul_pos (hW0 i) (ht i))) (by fun_prop)) fun i => ?_
    have h5 := subgrad_of_isProx (hF i) (ht i) (hP2 i 0)
    classical
    refine ⟨WithLp.toLp 2 fun j => Real.sqrt (W j) • P i 0, WithLp.toLp 2 fun j => if j = i then (W i * t i / Real.sqrt (W i)) • ((1 / t i) • (0 - P i 0)) else 0, ?_, ?_⟩
    · simp only [XFun.comp, XFun.smul, Set.mem_setOf_eq]
      rw [smul_smul, one_div_mul_cancel (hq0 i).ne', one_smul]; exact h5.1
    · intro y hy
      simp only [XFun.comp, XFun.smul]
      rw [smul_smul, one_div_mul_cancel (hq0 i).ne', one_smul, PiLp.inner_apply, Finset.sum_eq_single i (by intro j _ hj; simp [hj]) (by simp)]
      have h6 := mul_le_mul_of_nonneg_left (h5.2 _ hy) (mul_pos (hW0 i) (ht i)).le
      simp only [if_true, PiLp.sub_apply]
      refine le_trans (le_of_eq ?_) h6
      rw [mul_add]
      congr 1
      rw [show (1 / Real.sqrt (W i)) • y i - P i 0 = (1 / Real.sqrt (W i)) • (y i - Real.sqrt (W i) • P i 0) by
        rw [smul_sub, smul_smul, one_div_mul_cancel (hq0 i).ne', one_smul], inner_smul_right, real_inner_smul_left]
      ring
  have hDcl : IsClosed D := by
    have : D = {a | ∀ i j : Fin m, (1 / Real.sqrt (W i)) • a i = (1 / Real.sqrt (W j)) • a j} := by
      ext a
      constructor
      · rintro ⟨x, rfl⟩ i j
        simp only [diagEmb]
        rw [smul_smul, smul_smul, one_div_mul_cancel (hq0 i).ne', one_div_mul_cancel (hq0 j).ne']
      · intro h
        refine ⟨(1 / Real.sqrt (W 0)) • a 0, ?_⟩
        ext i
        simp only [diagEmb]
        rw [h 0 i, smul_smul, mul_one_div_cancel (hq0 i).ne', one_smul]
    rw [this]
    simp only [Set.setOf_forall]
    exact isClosed_iInter fun i => isClosed_iInter fun j => isClosed_eq (by fun_prop) (by fun_prop)
  haveI : ProperSpace (PiLp 2 fun _ : Fin m => E) := by
    haveI : FiniteDimensional ℝ E := FiniteDimensional.of_locallyCompactSpace ℝ
    exact FiniteDimensional.proper ℝ _
  obtain ⟨pv, hpv, hsub⟩ := dyk_converges hrun (fun j => by fin_cases j; exacts [hprodcl, indicator_closed hDcl]) (c0 := diagEmb W c0) (fun j => by
    fin_cases j
    · intro i
      simp only [diagEmb]
      rw [smul_smul, one_div_mul_cancel (hq0 i).ne', one_smul]; exact hc0 i
    · exact ⟨c0, rfl⟩)
  rw [sumObj_two] at hsub
  obtain ⟨c, rfl⟩ : pv ∈ D := hsub.1.2
  have hemb : ∀ y i, (1 / Real.sqrt (W i)) • (diagEmb W y : PiLp 2 fun _ : Fin m => E) i = y := fun y i => by
    simp only [diagEmb]; rw [smul_smul, one_div_mul_cancel (hq0 i).ne', one_smul]
  refine ⟨c, isUniqueProx_of_subgrad one_pos ⟨fun i => ?_, fun y hy => ?_⟩, S, hR, ?_⟩
  · have := hsub.1.1 i
    rw [hemb] at this; exact this
  · have h5 := hsub.2 (diagEmb W y) ⟨fun i => by rw [hemb]; exact hy i, ⟨y, rfl⟩⟩
    simp only [XFun.add, XFun.indicator, add_zero, Matrix.cons_val_zero, Matrix.cons_val_one, prodObj, hemb] at h5
    rw [← diagEmb_sub, ← diagEmb_sub] at h5
    have h6 := diagEmb_inner hW0 (fun _ : Fin m => x0 - c) (y - c)
    rw [← Finset.sum_smul, hW1, one_smul] at h6
    have h7 : ⟪diagEmb W (x0 - c), diagEmb W (y - c)⟫ = ⟪x0 - c, y - c⟫ := h6
    rw [h7] at h5
    simp only [sumObj, XFun.smul, div_one, one_smul]
    have e : ∀ i, w i * t i / ∑ j, w j = W i * t i := fun i => by simp only [hW]; ring
    simp only [e]
    exact h5
  · have h5 : Tendsto (fun k => (1 / Real.sqrt (W 0)) • (diagEmb W (S k).x : PiLp 2 fun _ : Fin m => E) 0) atTop (𝓝 ((1 / Real.sqrt (W 0)) • (diagEmb W c : PiLp 2 fun _ : Fin m => E) 0)) := by
      have hc : Continuous fun a : PiLp 2 fun _ : Fin m => E => (1 / Real.sqrt (W 0)) • a 0 := by fun_prop
      have h6 : Tendsto (fun k => (diagEmb W (S k).x : PiLp 2 fun _ : Fin m => E)) atTop (𝓝 (diagEmb W c)) := by simpa using hpv
      exact (hc.tendsto _).comp h6
    simpa only [hemb] using h5

end par

/-! ## Sum and GenericIntersection -/

section sum
variable {F : Fin m → XFun E}

lemma more_converges_closed [ProperSpace E] [NeZero m] (c : SumCfg E m) (hm : 3 ≤ m ∨ (m = 2 ∧ c.useParallel = true)) (hF : ∀ i, (F i).Convex) (hcl : ∀ i, (F i).Closed)
    (hf : ∀ i, ProxExact (c.ops i) (F i)) (w : Fin m → ℝ) (hpos : ∀ i, 0 < w i) (s : SumState) (hw : s.w = List.ofFn w) (hne : ∃ c, ∀ i, c ∈ (F i).dom) (x0 : E)
    {τ : ℝ} (hτ : 0 < τ) (mx : E → ℝ) (hmx : ∀ v, 0 ≤ mx v) :
    ∃ p, IsUniqueProx (sumObj fun i => (F i).smul (w i * (if c.useOriginalTau then τ else τ / w i) / ∑ j, w j)) 1 x0 p ∧
      ∃ R : ℕ → E, (∀ n, (Sum.prox (c.run n) mx s x0 τ).1 = .ok (R n)) ∧ Tendsto R atTop (𝓝 p) := by
  have ht : ∀ i, 0 < (if c.useOriginalTau then τ else τ / w i) := fun i => by
    have := hpos i
    split_ifs <;> positivity
  obtain ⟨p, h1, R, h2, h3⟩ := C37_weighted_converges_closed (F := F) (proxs := fun i => (c.ops i).prox) hF hcl hpos ht (fun i v => hf i v _ (ht i)) hne x0 mx hmx
  refine ⟨p, h1, fun n => (R n).x, fun n => ?_, h3⟩
  rw [sum_prox_more (c.run n) hm mx s x0 hτ, moreProx_of_weights (c.run n) (by omega) mx s w hw hpos]
  have e : parallelDykstraProx x0 (fun i => ((c.run n).ops i).prox) (List.ofFn w) (List.ofFn fun i => if (c.run n).useOriginalTau then τ else τ / w i) (c.run n).niter
      (c.run n).tol mx = .ok (R n) := h2 n
  rw [e]; rfl

lemma sumObj_convex (hF : ∀ i, (F i).Convex) : (sumObj F).Convex := by
  refine ⟨fun x hx y hy a b ha hb hab i => (hF i).1 (hx i) (hy i) ha hb hab, fun x hx y hy a b ha hb hab => ?_⟩
  simp only [sumObj, smul_eq_mul, Finset.mul_sum]
  rw [← Finset.sum_add_distrib]
  exact Finset.sum_le_sum fun i _ => (hF i).2 (hx i) (hy i) ha hb hab

lemma isUniqueProx_scaled_one {τ : ℝ} (hτ : 0 < τ) {x0 p : E} (hF : ∀ i, (F i).Convex) (h : IsUniqueProx (sumObj fun i => (F i).smul τ) 1 x0 p) :
    IsUniqueProx (sumObj F) τ x0 p := by
  have hc : (sumObj fun i => (F i).smul τ).Convex := sumObj_convex fun i => smulConvex (hF i) hτ.le
  have h1 := subgrad_of_isProx hc one_pos h.1
  rw [div_one, one_smul] at h1
  exact isUniqueProx_of_scaled hτ h1

/-- C38: with default options and no weights, closed convex functions with a common point of finite value, and any number of operators, every call with `tol = 0` succeeds and
the points returned converge, as the number of iterations grows, to the proximal point of `τ ∑ f_i`. -/
theorem C38_default_converges_closed [ProperSpace E] (c : SumCfg E m) (htau : c.useOriginalTau = false) (hF : ∀ i, (F i).Convex) (hcl : ∀ i, (F i).Closed)
    (hf : ∀ i, ProxExact (c.ops i) (F i)) (s : SumState) (hs : Sum.init m none = .ok s) (hne : ∃ c, ∀ i, c ∈ (F i).dom) (x0 : E) {τ : ℝ} (hτ : 0 < τ)
    (mx : E → ℝ) (hmx : ∀ v, 0 ≤ mx v) :
    ∃ p, IsUniqueProx (sumObj F) τ x0 p ∧ ∃ R : ℕ → E, (∀ n, (Sum.prox (c.run n) mx s x0 τ).1 = .ok (R n)) ∧ Tendsto R atTop (𝓝 p) := by
  have hm0 : m ≠ 0 := by
    rintro rfl
    simp [Sum.init] at hs
  have hm0' : (m : ℝ) ≠ 0 := by exact_mod_cast hm0
  have hw : s.w = List.ofFn fun _ : Fin m => 1 / (m : ℝ) := by
    simp only [Sum.init, hm0, if_false] at hs
    cases hs
    simp [List.ofFn_const]
  have : NeZero m := ⟨hm0⟩
  have more : (3 ≤ m ∨ (m = 2 ∧ c.useParallel = true)) →
      ∃ p, IsUniqueProx (sumObj F) τ x0 p ∧ ∃ R : ℕ → E, (∀ n, (Sum.prox (c.run n) mx s x0 τ).1 = .ok (R n)) ∧ Tendsto R atTop (𝓝 p) := fun hm => by
    obtain ⟨p, h1, h2⟩ := more_converges_closed c hm hF hcl hf (fun _ => 1 / (m : ℝ)) (fun _ => by positivity) s hw hne x0 hτ mx hmx
    refine ⟨p, isUniqueProx_scaled_one hτ hF ?_, h2⟩
    have e : (1 / (m : ℝ) * (if c.useOriginalTau then τ else τ / (1 / (m : ℝ))) / ∑ _j : Fin m, 1 / (m : ℝ)) = τ := by
      simp [htau]; field_simp
    simp only [e] at h1
    exact h1
  match m, c, htau, F, hF, hcl, hf, hs, hne, hm0, more with
  | 0, _, _, _, _, _, _, _, _, hm0, _ => exact absurd rfl hm0
  | 1, c, _, F, hF, _, hf, hs, _, _, _ =>
    obtain ⟨q, -, hq'⟩ := C38_single (c.run 0) (hf 0) mx s x0 hτ
    have e : sumObj F = F 0 := by
      simp only [sumObj, Fin.sum_univ_one, Fin.forall_fin_one]; rfl
    refine ⟨q, ?_, fun _ => q, fun n => ?_, tendsto_const_nhds⟩
    · rw [e]; exact isUniqueProx_of_subgrad hτ (subgrad_of_isProx (hF 0) hτ hq')
    · obtain ⟨q2, h2, h2'⟩ := C38_single (c.run n) (hf 0) mx s x0 hτ
      rw [h2, IsProx.unique (hF 0) hτ hq' h2']
  | 2, c, _, F, hF, hcl, hf, hs, hne, _, more =>
    by_cases hpar : c.useParallel = true
    · exact more (Or.inr ⟨rfl, hpar⟩)
    · obtain ⟨c0, hc0⟩ := hne
      obtain ⟨p, h1, R, h2, h3⟩ := C37_two_converges_closed (hF 0) (hF 1) (hcl 0) (hcl 1) hτ (fun v => hf 0 v τ hτ) (fun v => hf 1 v τ hτ) ⟨c0, hc0 0, hc0 1⟩ x0 mx hmx
      refine ⟨p, by rw [sumObj_two]; exact h1, fun n => (R n).x, fun n => ?_, h3⟩
      have e := h2 n
      simp only [Sum.prox, not_le.2 hτ, if_false, Sum.dispatch]
      rw [show (c.run n).useParallel = false by simpa [SumCfg.run] using hpar]
      simp only [Bool.false_eq_true, if_false, SumCfg.run]
      rw [e]; rfl
  | k + 3, _, _, _, _, _, _, _, _, _, more => exact more (Or.inl (by omega))

/-- C38: with weights summing to one and default steps, the parallel routine converges to the proximal point of `τ ∑ f_i` whatever the weights are. -/
theorem C38_weighted_converges_closed [ProperSpace E] [NeZero m] (c : SumCfg E m) (hm : 3 ≤ m ∨ (m = 2 ∧ c.useParallel = true)) (htau : c.useOriginalTau = false)
    (hF : ∀ i, (F i).Convex) (hcl : ∀ i, (F i).Closed) (hf : ∀ i, ProxExact (c.ops i) (F i)) (w : Fin m → ℝ) (hpos : ∀ i, 0 < w i) (hw1 : ∑ i, w i = 1) (s : SumState)
    (hw : s.w = List.ofFn w) (hne : ∃ c, ∀ i, c ∈ (F i).dom) (x0 : E) {τ : ℝ} (hτ : 0 < τ) (mx : E → ℝ) (hmx : ∀ v, 0 ≤ mx v) :
    ∃ p, IsUniqueProx (sumObj F) τ x0 p ∧ ∃ R : ℕ → E, (∀ n, (Sum.prox (c.run n) mx s x0 τ).1 = .ok (R n)) ∧ Tendsto R atTop (𝓝 p) := by
  obtain ⟨p, h1, h2⟩ := more_converges_closed c hm hF hcl hf w hpos s hw hne x0 hτ mx hmx
  refine ⟨p, isUniqueProx_scaled_one hτ hF ?_, h2⟩
  have e : ∀ i, (w i * (if c.useOriginalTau then τ else τ / w i) / ∑ j, w j) = τ := fun i => by
    have := (hpos i).ne'
    simp [htau, hw1]; field_simp
  simp only [e] at h1
  exact h1

/-- C38: with `use_original_tau`, the parallel routine converges to the proximal point of `τ ∑ w_i f_i` (weights normalised). -/
theorem C38_original_tau_converges_closed [ProperSpace E] [NeZero m] (c : SumCfg E m) (hm : 3 ≤ m ∨ (m = 2 ∧ c.useParallel = true)) (htau : c.useOriginalTau = true)
    (hF : ∀ i, (F i).Convex) (hcl : ∀ i, (F i).Closed) (hf : ∀ i, ProxExact (c.ops i) (F i)) (w : Fin m → ℝ) (hpos : ∀ i, 0 < w i) (s : SumState)
    (hw : s.w = List.ofFn w) (hne : ∃ c, ∀ i, c ∈ (F i).dom) (x0 : E) {τ : ℝ} (hτ : 0 < τ) (mx : E → ℝ) (hmx : ∀ v, 0 ≤ mx v) :
    ∃ p, IsUniqueProx (sumObj fun i => (F i).smul (w i / ∑ j, w j)) τ x0 p ∧
      ∃ R : ℕ → E, (∀ n, (Sum.prox (c.run n) mx s x0 τ).1 = .ok (R n)) ∧ Tendsto R atTop (𝓝 p) := by
  obtain ⟨p, h1, h2⟩ := more_converges_closed c hm hF hcl hf w hpos s hw hne x0 hτ mx hmx
  have hs0 : 0 < ∑ j, w j := Finset.sum_pos (fun i _ => hpos i) ⟨0, Finset.mem_univ _⟩
  refine ⟨p, isUniqueProx_scaled_one hτ (fun i => smulConvex (hF i) (div_pos (hpos i) hs0).le) ?_, h2⟩
  have e : ∀ i, (F i).smul (w i * (if c.useOriginalTau then τ else τ / w i) / ∑ j, w j) = ((F i).smul (w i / ∑ j, w j)).smul τ := fun i => by
    simp only [htau, if_true, XFun.smul]
    congr 1
    funext x; ring
  simp only [e] at h1
  exact h1

/-- C38: for any positive number of sets whose intersection is nonempty, the serial and the parallel routine alike, every call with `tol = 0` succeeds and the points returned converge,
as the number of iterations grows, to the projection onto the intersection. -/
theorem C38_intersection_converges_closed [ProperSpace E] [NeZero m] {C : Fin m → Set E} (hC : ∀ i, _root_.Convex ℝ (C i)) {P : Fin m → E → Py E}
    (hP : ∀ i v, ∃ p, P i v = .ok p ∧ IsProj (C i) v p) (hne : (⋂ i, C i).Nonempty) (par : Bool) (mx : E → ℝ) (hmx : ∀ v, 0 ≤ mx v) (x : E) :
    ∃ p, IsUniqueProj (⋂ i, C i) x p ∧ ∃ R : ℕ → E, (∀ n, GenericIntersectionProj P n 0 par mx x = .ok (R n)) ∧ Tendsto R atTop (𝓝 p) := by
  obtain ⟨p, h1, r, h2, h3⟩ := C37_cyclic_projection_converges hC hP hne x mx hmx
  have hm0 : m ≠ 0 := NeZero.ne m
  match m, C, hC, P, hP, hne, h1, r, h2, h3, hm0 with
  | 0, _, _, _, _, _, _, _, _, _, hm0 => exact absurd rfl hm0
  | 1, C, _, P, hP, _, h1, _, _, _, _ =>
    obtain ⟨q, hq, hq'⟩ := hP 0 x
    have e : (⋂ i, C i) = C 0 := by ext y; simp
    rw [e] at h1
    refine ⟨p, by rw [e]; exact h1, fun _ => q, fun n => hq, ?_⟩
    rw [h1.2 q hq']
    exact tendsto_const_nhds
  | 2, C, hC, P, hP, hne, h1, r, h2, h3, _ =>
    cases par with
    | true =>
      refine ⟨p, h1, fun n => (r n).u, fun n => ?_, h3⟩
      simp only [GenericIntersectionProj, if_true]
      rw [h2 n]; rfl
    | false =>
      obtain ⟨c0, hc0⟩ := hne
      have hex : ∀ i v, ∃ p, P i v = .ok p ∧ IsProx (XFun.indicator (C i)) 1 v p := fun i v => by
        obtain ⟨q, hq, hq'⟩ := hP i v
        exact ⟨q, hq, (isProj_iff_isProx one_pos).2 hq'⟩
      have hcl : ∀ i, (XFun.indicator (C i)).Closed := fun i => indicator_closed (closed_of_proj fun v => by obtain ⟨p, -, h⟩ := hP i v; exact ⟨p, h⟩)
      obtain ⟨p', g1, R, g2, g3⟩ := C37_two_converges_closed (indicator_convex (hC 0)) (indicator_convex (hC 1)) (hcl 0) (hcl 1) one_pos (hex 0) (hex 1)
        ⟨c0, Set.mem_iInter.1 hc0 0, Set.mem_iInter.1 hc0 1⟩ x mx hmx
      refine ⟨p', ?_, fun n => (R n).x, fun n => ?_, g3⟩
      · rw [← isUniqueProj_iff_isUniqueProx one_pos]
        have : XFun.indicator (⋂ i, C i) = (XFun.indicator (C 0)).add (XFun.indicator (C 1)) := by
          simp only [XFun.indicator, XFun.add, add_zero]
          congr 1
          ext y; simp [Fin.forall_fin_two]
        rw [this]; exact g1
      · simp only [GenericIntersectionProj, Bool.false_eq_true, if_false]
        rw [g2 n]; rfl
  | k + 3, _, _, _, _, _, h1, r, h2, h3, _ =>
    refine ⟨p, h1, fun n => (r n).u, fun n => ?_, h3⟩
    simp only [GenericIntersectionProj]
    rw [h2 n]; rfl

end sum

/-- The hypotheses can be met: the sets of points left and right of the origin on the line, which touch at the origin only, where a constraint qualification by interior points fails. -/
example : ∃ P : Fin 2 → ℝ → Py ℝ, (∀ i v, ∃ p, P i v = .ok p ∧ IsProj ((![Set.Iic 0, Set.Ici 0] : Fin 2 → Set ℝ) i) v p) ∧
    (⋂ i, (![Set.Iic 0, Set.Ici 0] : Fin 2 → Set ℝ) i).Nonempty := by
  refine ⟨![fun v => .ok (min v 0), fun v => .ok (max v 0)], ?_, 0, ?_⟩
  · rw [Fin.forall_fin_two]
    constructor <;> intro v
    · refine ⟨min v 0, rfl, Set.mem_Iic.2 (min_le_right _ _), fun y hy => ?_⟩
      have hy' : y ≤ 0 := hy
      rw [Real.norm_eq_abs, Real.norm_eq_abs, abs_of_nonneg (sub_nonneg.2 (min_le_left _ _))]
      rcases le_total v 0 with h | h
      · rw [min_eq_left h, sub_self]; exact abs_nonneg _
      · rw [min_eq_right h]; exact le_trans (by linarith) (le_abs_self _)
    · refine ⟨max v 0, rfl, Set.mem_Ici.2 (le_max_right _ _), fun y hy => ?_⟩
      have hy' : 0 ≤ y := hy
      rw [Real.norm_eq_abs, Real.norm_eq_abs, abs_of_nonpos (sub_nonpos.2 (le_max_left _ _))]
      rcases le_total 0 v with h | h
      · rw [max_eq_left h, sub_self, neg_zero]; exact abs_nonneg _
      · rw [max_eq_right h]; exact le_trans (by linarith) (neg_le_abs _)
  · simp [Fin.forall_fin_two]

end Verif
