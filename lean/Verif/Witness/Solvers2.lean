import Verif.Witness.Solvers
import Verif.Props.Parallel
import Verif.Props.Identify
import Verif.Props.Sensitivity
import Verif.Props.Dichotomy

/-! # Concrete cases for C48, C49, C51, C53, C65, C73, C100, C115, C117, C119

The problem of `Verif/Witness/Kit.lean` again; a second data array `b' = [3, 2]` for the sensitivity results. -/

open scoped RealInnerProductSpace
open Filter Topology

set_option linter.unnecessarySeqFocus false

namespace Verif
namespace Kit

/-! ## PPXA and ConsensusADMM (C48, C49) -/

/-- The two functions `L2(b)` and `L1()`. -/
noncomputable def fs : Fin 2 → ProxOp V2 := ![f, g]
noncomputable def Fs : Fin 2 → XFun V2 := ![F, G]
lemma hfs (i : Fin 2) : ProxExact (fs i) (Fs i) := by fin_cases i; exacts [hf, hg]
lemma hFs (i : Fin 2) : (Fs i).Convex := by fin_cases i; exacts [hF, hG]

/-- Weights `1/4, 3/4`. -/
noncomputable def w : Fin 2 → ℝ := ![1 / 4, 3 / 4]
lemma hw (i : Fin 2) : 0 < w i := by fin_cases i <;> simp [w] <;> norm_num
lemma hw1 : ∑ i, w i = 1 := by simp [w]; norm_num

lemma certSum : IsCertifiedSum Fs 0 xs ![-ss, ss] := by
  refine ⟨fun i => ?_, by simp⟩
  fin_cases i
  exacts [cert.1, cert.2]

noncomputable def mx : V2 → ℝ := fun v => ‖v‖
lemma hmx (v : V2) : 0 ≤ mx v := norm_nonneg v

noncomputable def ppxaRun (y0 : Fin 2 → V2) : ℕ → PPXAState V2 2 := fun n => (C48_ppxa_returns hfs hw one_pos y0 1 n 0 mx).choose
lemma ppxaRun_ok (y0 : Fin 2 → V2) (n : ℕ) : PPXA fs (some w) y0 1 1 n 0 mx = .ok (ppxaRun y0 n) := (C48_ppxa_returns hfs hw one_pos y0 1 n 0 mx).choose_spec

example := C48_ppxa_converges_partial hFs hfs hw hw1 one_pos one_pos one_lt_two 0 mx hmx ⟨xs, _, certSum⟩ (ppxaRun fun _ => 0) (ppxaRun_ok fun _ => 0)
example := C48_ppxa_default_weights hFs hfs one_pos one_pos one_lt_two ![b, 0] mx hmx ⟨xs, _, certSum⟩
/-- A list of starts with a gap, for which the tilted problem has a certified solution: `½‖x-b‖² + ‖x‖₁` tilted by `v`, where `v = [1, 1]`. -/
example : ∃ y0 : Fin 2 → V2, startGap w y0 ≠ 0 ∧ ∃ x s, IsCertifiedSum Fs ((1 / (1 : ℝ)) • startGap w y0) x s := by
  refine ⟨![!₂[4, 4], 0], ?_, !₂[1, 0], ![!₂[-2, -1], !₂[1, 0]], fun i => ?_, ?_⟩
  · intro h
    have := congrArg (fun v : V2 => v 0) h
    simp [startGap, w, Fin.sum_univ_two] at this
    norm_num at this
  · fin_cases i
    · have := f_subgrad !₂[1, 0]
      have e : (!₂[1, 0] : V2) - b = !₂[-2, -1] := by ext i; fin_cases i <;> simp [b] <;> norm_num
      rw [e] at this
      exact this
    · exact l1_subgrad (by intro i; fin_cases i <;> simp) (by intro i; fin_cases i <;> simp)
  · ext i
    fin_cases i <;> simp [startGap, w, Fin.sum_univ_two] <;> norm_num

/-- Stationary runs: both functions are `L2(b)` and the start is `b`. -/
lemma ppxa_fixed (n : ℕ) : ∃ l, PPXA (fun _ : Fin 2 => f) (some w) (fun _ => b) 1 1 n 0 mx = .ok ⟨b, b, fun _ => b, l⟩ := by
  have h : ∀ (n i : ℕ) (l : List V2), ∃ l', forRange (PPXA.body (fun _ : Fin 2 => f) w 1 1 0 mx) n i ⟨b, b, fun _ => b, l⟩ = .ok ⟨b, b, fun _ => b, l'⟩ := by
    intro n
    induction n with
    | zero => exact fun i l => ⟨l, rfl⟩
    | succ n ih =>
      intro i l
      have hp : (mapPy fun i : Fin 2 => if w i = 0 then .error .nanResult else f.prox b (1 / w i)) = .ok fun _ => b := by
        refine mapPy_ok ?_
        intro i
        rw [if_neg (hw i).ne', fprox_b (div_pos one_pos (hw i))]
      have hs : ∑ i, w i • b = b := by rw [← Finset.sum_smul, hw1, one_smul]
      have hm : ¬ mx (b - b) < 0 := not_lt.2 (hmx _)
      have e : PPXA.body (fun _ : Fin 2 => f) w 1 1 0 mx i ⟨b, b, fun _ => b, l⟩ = .ok (⟨b, b, fun _ => b, l ++ [b]⟩, false) := by
        simp only [PPXA.body, hp, Bind.bind, Except.bind, hs, sub_self, smul_zero, add_zero, two_smul, add_sub_cancel_right, hm, if_false, Pure.pure, Except.pure]
        simp [mx]
      obtain ⟨l', h⟩ := ih (i + 1) (l ++ [b])
      exact ⟨l', by rw [forRange, e]; exact h⟩
  obtain ⟨l, h⟩ := h n 0 []
  have hb : (1 / ((2 : ℕ) : ℝ)) • ∑ _i : Fin 2, b = b := by
    rw [Fin.sum_univ_two, ← two_smul ℝ b, smul_smul]; norm_num
  refine ⟨l, ?_⟩
  simp only [PPXA, OfNat.ofNat_ne_zero, if_false]
  rw [hb]
  exact h

example (n : ℕ) : (sumObj fun _ : Fin 2 => F).IsMin b := by
  obtain ⟨l, h⟩ := ppxa_fixed n
  obtain ⟨l', h'⟩ := ppxa_fixed (n + 1)
  exact C48_ppxa_stationary_partial (fs := fun _ => f) (F := fun _ => F) (w := w) (η := 1) (fun _ => hF) (fun _ => hf) hw hw1 one_pos one_ne_zero b n mx hmx ⟨b, b, fun _ => b, l⟩ ⟨b, b, fun _ => b, l'⟩ h h' rfl rfl
example (n : ℕ) : ((sumObj fun _ : Fin 2 => F).addLinear ((1 / (1 : ℝ)) • startGap w fun _ => b)).IsMin b := by
  obtain ⟨l, h⟩ := ppxa_fixed n
  obtain ⟨l', h'⟩ := ppxa_fixed (n + 1)
  exact C48_ppxa_stationary_tilted (fs := fun _ => f) (F := fun _ => F) (w := w) (η := 1) (fun _ => hF) (fun _ => hf) hw hw1 one_pos one_ne_zero (fun _ => b) n mx hmx ⟨b, b, fun _ => b, l⟩ ⟨b, b, fun _ => b, l'⟩ h h' rfl rfl

noncomputable def consRun : ℕ → ConsState V2 2 := fun n => ((C49_cons_returns hfs one_pos 0 n 0 mx).1 two_ne_zero).choose
lemma consRun_ok (n : ℕ) : ConsensusADMM fs 0 1 n 0 mx = .ok (consRun n) := ((C49_cons_returns hfs one_pos 0 n 0 mx).1 two_ne_zero).choose_spec

example (n : ℕ) := C49_cons_dual_sum hfs one_pos 0 n 0 mx _ (consRun_ok n)
example := C49_cons_converges hFs hfs one_pos 0 mx hmx ⟨xs, _, certSum⟩ consRun consRun_ok

/-! ## GeneralizedProximalGradient (C53) -/

noncomputable def gpgRun (acc : Accel) (h : acc ≠ .other) : ℕ → GPGState V2 2 := fun n =>
  (C53_gpg_returns (l := 1) (m := 2) (fs := fun _ => f) (gs := fun _ => g) (φ := fun _ => φ) (e := fun _ => 1 / 2) (eps := .scalar (1 / 2)) (τ := 1) (fun _ => hfg) (fun _ => hg)
    (fun _ => rfl) (fun _ => by norm_num) hw hw1 one_pos 0 1 n acc h).choose
lemma gpgRun_ok (acc : Accel) (h : acc ≠ .other) (n : ℕ) :
    GeneralizedProximalGradient (l := 1) (m := 2) (fun _ => f) (fun _ => g) 0 (some 1) (.scalar (1 / 2)) (some (List.ofFn w)) 1 n acc = .ok (gpgRun acc h n) :=
  (C53_gpg_returns (l := 1) (m := 2) (fs := fun _ => f) (gs := fun _ => g) (φ := fun _ => φ) (e := fun _ => 1 / 2) (eps := .scalar (1 / 2)) (τ := 1) (fun _ => hfg) (fun _ => hg)
    (fun _ => rfl) (fun _ => by norm_num) hw hw1 one_pos 0 1 n acc h).choose_spec

example (n : ℕ) : (gpgRun .none (by decide) n).y = (gpgRun .none (by decide) n).x :=
  C53_gpg_y_eq_x (l := 1) (φ := fun _ => φ) (e := fun _ => 1 / 2) (fun _ => hfg) (fun _ => hg) (fun _ => rfl) (fun _ => by norm_num) hw hw1 one_pos 0 n _ (gpgRun_ok .none (by decide) n)
example (n : ℕ) := C53_gpg_weighted_sum _ _ _ _ _ _ _ _ _ _ (gpgRun_ok .fista (by decide) n)
/-- The solution of `½‖x-b‖² + ½‖x‖₁ + ½‖x‖₁` is `[2, 0]`. -/
lemma gpgSol : ∃ (x u : V2) (s : Fin 2 → V2), IsGrad (fun x => ∑ _i : Fin 1, φ x) x u ∧ (∀ j : Fin 2, IsSubgrad G x (s j)) ∧ u + ∑ j, (1 / 2 : ℝ) • s j = 0 := by
  refine ⟨xs, xs - b, fun _ => ss, by simpa using isGrad xs, fun _ => cert.2, ?_⟩
  rw [xs_sub, Fin.sum_univ_two, ← add_smul]
  norm_num
lemma gpgLip : LipschitzGrad (fun x => ∑ _i : Fin 1, φ x) 1 := by simpa using hL
example := C53_gpg_converges (l := 1) (φ := fun _ => φ) (e := fun _ => 1 / 2) (fun _ => hfg) (fun _ => hφ) one_pos gpgLip (fun _ => hG) (fun _ => hg) (fun _ => rfl) (fun _ => by norm_num) hw hw1
  one_pos one_pos (by norm_num) 0 gpgSol (gpgRun .none (by decide)) (gpgRun_ok .none (by decide))

/-! ## AdaptivePrimalDual (C51, C73) -/

noncomputable def apdArgs (n : ℕ) : APDArgs V2 V2 := ⟨19 / 20, 1, 3 / 2, none, none, n, 0⟩
noncomputable def apdRun (n : ℕ) : APDState V2 V2 := (C51_apd_returns (A := A) (τ := 1 / 2) (μ := 1 / 2) (α := 1 / 2) (a := apdArgs n) hf hd (by norm_num) (by norm_num) (by norm_num) (by norm_num)
  (by norm_num [apdArgs]) (by norm_num [apdArgs]) (by norm_num [apdArgs]) rfl 0).choose
lemma apdRun_ok (n : ℕ) : AdaptivePrimalDual f g A 0 (1 / 2) (1 / 2) (1 / 2) (apdArgs n) = .ok (apdRun n) :=
  (C51_apd_returns (A := A) (τ := 1 / 2) (μ := 1 / 2) (α := 1 / 2) (a := apdArgs n) hf hd (by norm_num) (by norm_num) (by norm_num) (by norm_num)
  (by norm_num [apdArgs]) (by norm_num [apdArgs]) (by norm_num [apdArgs]) rfl 0).choose_spec
example (n : ℕ) := C51_apd_histories 0 _ (apdRun_ok n)
example (n : ℕ) := C51_apd_steps (by norm_num) (by norm_num) (by norm_num) (by norm_num) (by norm_num [apdArgs]) (by norm_num [apdArgs]) 0 _ (apdRun_ok n)

/-! ## Equivalences (C100) -/

lemma tf {τ : ℝ} (hτ : 0 < τ) : ProxTotal f τ := fun x => by obtain ⟨p, h, -⟩ := hf x τ hτ; exact ⟨p, h⟩
lemma tg {τ : ℝ} (hτ : 0 < τ) : ProxTotal g τ := fun x => by obtain ⟨p, h, -⟩ := hg x τ hτ; exact ⟨p, h⟩

example (n : ℕ) : ∃ w, g.prox b 1 = .ok w ∧ ∃ s r, ADMM f g (some b) none 1 (n + 1) true = .ok s ∧ DouglasRachford f g w 1 1 (n + 1) false = .ok r ∧ s.x = r.1 := by
  obtain ⟨w, hw⟩ := tg one_pos b
  obtain ⟨s, r, h1, h2, h3, -⟩ := C100_admm_dr_gfirst (tf one_pos) (tg one_pos) b w none hw n
  exact ⟨w, hw, s, r, h1, h2, h3⟩
example (n : ℕ) : ∃ s r, ADMM f g none (some b) 1 (n + 1) false = .ok s ∧ DouglasRachford f g b 1 1 (n + 1) true = .ok r ∧ s.z = r.1 := by
  obtain ⟨s, r, h1, h2, h3, -⟩ := C100_admm_dr (tf one_pos) (tg one_pos) none b b (fprox_b one_pos) n
  exact ⟨s, r, h1, h2, h3⟩
example (n : ℕ) := C100_linearized_admm one_ne_zero (tf one_pos) (tg one_pos) 0 n
example (n : ℕ) := C100_ppxa_point (tf one_pos) 0 mx hmx n
example (n : ℕ) := C100_consensus_point (tf one_pos) 0 mx hmx n
example (n : ℕ) := C100_generalized_pg (f := f) (g := g) (ε := 1 / 2) (τ := 1) (fun x => ⟨_, fgrad x⟩) (tg (by norm_num)) 0 (n + 1) n.succ_pos

/-! ## Settling (C115) -/

/-- At the solution `[2, 0]` of the lasso the second coordinate is degenerate; with the weight 2 the solution is `[1, 0]` and it is not. -/
lemma isMin2 : (compositeObj φ 2 G).IsMin xa := by
  refine ⟨⟨trivial, trivial⟩, fun y _ => ?_⟩
  have h1 := (f_subgrad xa).2 y trivial
  have h2 := (l1_subgrad (x := xa) (s := ya) (by intro i; fin_cases i <;> simp [ya] <;> norm_num) (by intro i; fin_cases i <;> simp [xa, ya])).2 y trivial
  have e : xa - b = -((2 : ℝ) • ya) := by ext i; fin_cases i <;> simp [xa, ya, b] <;> norm_num
  rw [e, inner_neg_left, real_inner_smul_left] at h1
  simp only [compositeObj, XFun.add, XFun.smul, F, G, XFun.ofReal] at h1 h2 ⊢
  linarith

lemma pgRun2_exists (acc : Accel) (h : acc ≠ .other) (n : ℕ) : ∃ s, 0 < n → ProximalGradient f g 0 (pgArgs 1 2 acc n) = .ok s := by
  rcases Nat.eq_zero_or_pos n with rfl | hn
  · exact ⟨pgRun acc h 0, fun h => absurd h (lt_irrefl 0)⟩
  · obtain ⟨s, hs⟩ := C41_pg_returns (ε := 2) (τ := 1) hfg hg two_pos one_pos acc h 0 n hn
    exact ⟨s, fun _ => hs⟩
noncomputable def pgRun2 (acc : Accel) (h : acc ≠ .other) : ℕ → PGState V2 := fun n => (pgRun2_exists acc h n).choose
lemma pgRun2_ok (acc : Accel) (h : acc ≠ .other) (n : ℕ) (hn : 0 < n) : ProximalGradient f g 0 (pgArgs 1 2 acc n) = .ok (pgRun2 acc h n) :=
  (pgRun2_exists acc h n).choose_spec hn

/-- The weight 2 iterates started at `0` have an exact zero in the second entry from some iteration on. -/
example : ∀ᶠ n in atTop, (pgRun2 .fista (by decide) n).x 1 = 0 := by
  obtain ⟨-, d, hd, h⟩ := C115_accelerated_strong hfg hL one_pos strong hG hg two_pos one_pos (by norm_num) .fista (Or.inl rfl) 0 xa isMin2 (pgRun2 .fista (by decide)) (pgRun2_ok _ _)
  refine h _ ((C115_l1 1 none (by norm_num) _ 1).1 ?_)
  rw [fgrad] at hd
  cases hd
  simp [xa, b]
example := C115_proximalgradient hfg hL hφ hG hg two_pos one_pos (by norm_num) 0 ⟨xa, isMin2⟩ (pgRun2 .none (by decide)) (pgRun2_ok _ _)
example := C115_proximalpoint hF hf 0 one_pos ⟨b, isMin_b⟩ ppRun ppRun_ok
example (gf : Bool) := C115_dr hF hG hf hg one_pos one_pos one_lt_two gf 0 ⟨xs, ss, cert⟩ (drRun gf) (drRun_ok gf)
example (gf : Bool) := C115_admm hF hG hf hg one_pos gf (some 0) none ⟨xs, ss, cert⟩ (admmRun gf) (admmRun_ok gf)
example (gf : Bool) := C115_primaldual hF hG hf hg hd (by norm_num) (by norm_num) zero_le_two opA (by norm_num) none gf 0 none ⟨xa, ya, certA⟩ (pdRun gf) (pdRun_ok gf)
example (gf : Bool) := C115_hqs hF hG hf hg one_pos ⟨_, _, penalised⟩ gf (some 0) none (hqsRun gf) (hqsRun_ok gf)

/-! ## Sensitivity (C117) -/

/-- The perturbed data `[3, 2]`. -/
noncomputable def b' : V2 := !₂[3, 2]
noncomputable def f' : ProxOp V2 := L2.obj ext (l2Plain (.bOnly b') 1) st
lemma hf' : ProxExact f' (XFun.ofReal (l2Spec (l2Plain (F' := V2) (.bOnly b') 1))) := l2Plain_exact ext (.bOnly b') (by simp) one_pos st
lemma hfg' : GradExact f' (l2Spec (l2Plain (F' := V2) (.bOnly b') 1)) := l2obj_grad ext _ rfl st

lemma norm_bb : ‖b - b'‖ = 1 := by
  rw [EuclideanSpace.norm_eq]
  simp [b, b', Fin.sum_univ_two]
  norm_num

lemma l2form (d x : V2) : (L2.obj ext (l2Plain (.bOnly d) 1) st).prox x 1 = .ok ((1 / 2 : ℝ) • (x + d)) := by
  simp only [ProxOp.prox, L2.obj, L2.prox, if_neg (not_le.2 one_pos), L2.proxBody, l2Plain, L2.subQ, npDivBy_ok _ (show (1 : ℝ) + 1 * 1 ≠ 0 by norm_num)]
  norm_num

/-- The two proximal operators are `1/2` apart. -/
lemma near_f : ProxNear f f' 1 (1 / 2) := fun x p p' h h' => by
  rw [f, l2form] at h
  rw [f', l2form] at h'
  cases h; cases h'
  rw [← smul_sub, add_sub_add_left_eq_sub, norm_smul, norm_bb]
  norm_num
lemma near_g {τ : ℝ} : ProxNear g g τ 0 := fun x p p' h h' => by
  rw [h] at h'; cases h'; simp
lemma near_grad (x v v' : V2) (h : f.grad x = .ok v) (h' : f'.grad x = .ok v') : ‖v - v'‖ ≤ 1 := by
  rw [fgrad] at h
  have e : f'.grad x = .ok (x - b') := by simp [f', L2.obj, ProxOp.grad, L2.grad, l2Plain]
  rw [e] at h'
  cases h; cases h'
  rw [sub_sub_sub_cancel_left, norm_sub_rev, norm_bb]

example (n : ℕ) (r : PPState V2) (hr : ProximalPoint f' 0 1 n none = .ok r) : ‖(ppRun n).x - r.x‖ ≤ 1 := by
  have := C117_proximalpoint_strong strong one_pos hf hf' one_pos near_f 0 0 n (ppRun_ok n) hr
  norm_num at this
  exact this
example (n : ℕ) (r : PPState V2) (hr : ProximalPoint f' 0 1 n none = .ok r) := C117_proximalpoint hF hf hf' one_pos near_f 0 0 n (ppRun_ok n) hr
example (n : ℕ) (r : PGState V2) (hr : ProximalGradient f' g 0 (pgArgs 1 1 .none (n + 1)) = .ok r) : ‖(pgRun .none (by decide) n).x - r.x‖ ≤ 1 := by
  have := C117_proximalgradient_strong hfg hfg' hL strong one_pos le_rfl hG hg hg one_pos one_pos (by norm_num) near_grad near_g 0 0 (n + 1) n.succ_pos (pgRun_ok .none (by decide) n) hr
  norm_num at this
  exact this
example (n : ℕ) (r : PGState V2) (hr : ProximalGradient f' g 0 (pgArgs 1 1 .none (n + 1)) = .ok r) :=
  C117_proximalgradient hfg hfg' hL zero_le_one hφ hG hg hg one_pos one_pos (by norm_num) near_grad near_g 0 0 (n + 1) n.succ_pos (pgRun_ok .none (by decide) n) hr
example (gf : Bool) (n : ℕ) (r : V2 × V2 × List (V2 × V2)) (hr : DouglasRachford f' g 0 1 1 (n + 1) gf = .ok r) :=
  C117_dr hF hG hf hf' hg hg one_pos zero_le_one one_le_two near_f near_g gf 0 0 n (drRun_ok gf n) hr
/-- `[2, 0]` for the weight 1, `[1, 0]` for the weight 2. -/
example := C117_path hfg hL hφ hG hg one_pos one_lt_two one_pos one_pos (by norm_num) (by norm_num) ⟨xs, isMin⟩ ⟨xa, isMin2⟩ 0 0 (fun n => pgRun .none (by decide) (n - 1))
  (pgRun2 .none (by decide)) (fun n hn => by
    obtain ⟨m, rfl⟩ := Nat.exists_eq_succ_of_ne_zero hn.ne'
    exact pgRun_ok _ _ m) (pgRun2_ok _ _)

/-! ## Either a solution or divergence (C119) -/

example := C119_proximalpoint hF hf 0 one_pos ppRun ppRun_ok
example (gf : Bool) := C119_dr hF hG hf hg one_pos one_pos one_lt_two gf 0 (drRun gf) (drRun_ok gf)
example (gf : Bool) := C119_admm hF hG hf hg one_pos gf (some 0) none (admmRun gf) (admmRun_ok gf)
example (gf : Bool) := C119_hqs hF hG hf hg one_pos gf (some 0) none (hqsRun gf) (hqsRun_ok gf)
example (y0 : Fin 2 → V2) := C119_ppxa hFs hfs hw hw1 one_pos one_pos one_lt_two y0 mx hmx (ppxaRun y0) (ppxaRun_ok y0)
example := C119_consensus hFs hfs one_pos 0 mx hmx consRun consRun_ok
example := C119_gpg (l := 1) (φ := fun _ => φ) (e := fun _ => 1 / 2) (fun _ => hfg) (fun _ => hφ) one_pos gpgLip (fun _ => hG) (fun _ => hg) (fun _ => rfl) (fun _ => by norm_num) hw hw1
  one_pos one_pos (by norm_num) 0 (gpgRun .none (by decide)) (gpgRun_ok .none (by decide))
example : (∃ c, (compositeObj φ 2 G).IsMin c ∧ Tendsto (fun n => (pgRun2 .none (by decide) n).x) atTop (𝓝 c)) ∨
    ((∀ c, ¬(compositeObj φ 2 G).IsMin c) ∧ Tendsto (fun n => ‖(pgRun2 .none (by decide) n).x‖) atTop atTop) :=
  C119_proximalgradient (η := 1) hfg hL hφ hG hg two_pos one_pos (by norm_num) one_pos le_rfl 0 (pgRun2 .none (by decide)) (pgRun2_ok _ _)
example (gf : Bool) (R : ℕ → PDState V2 V2) (hR : ∀ n, PrimalDual f g A 0 none none (.scalar (1 / 4)) (.scalar (1 / 4)) 1 n gf = .ok (R n)) :=
  C119_primaldual hF hG hf hg hd (by norm_num) (by norm_num) zero_le_two opA (by norm_num) none gf 0 none R hR
example (R : ℕ → SplitOpState V2 V2) (hR : ∀ n, LinearizedADMM f g A (some 0) none 1 (1 / 5) n = .ok (R n)) :=
  C119_linadmm hF hG hf hg one_pos (by norm_num) zero_le_two opA (by norm_num) 0 none R hR

end Kit
end Verif
