import Verif.Spec.Contract
import Verif.Lemmas.Svd
import Verif.Lemmas.Closed
import Verif.Lemmas.Calculus
import Verif.Props.Projections2

/-!
# C60, C71, C72: operators on the singular values of a matrix
-/

open scoped RealInnerProductSpace

set_option linter.unusedSectionVars false

namespace Verif

variable {ι κ ρ : Type} [Fintype ι] [Fintype κ] [Fintype ρ]

/-- What is assumed of `np.linalg.svd(·, full_matrices=False)`: it returns a thin singular value decomposition. -/
def SvdExact (svd : Vec (ι × κ) → SVD ι κ ρ) : Prop := ∀ x, IsSVD x (svd x).u (svd x).s (svd x).v

lemma nucNorm_convex : ConvexOn ℝ Set.univ (nucNorm : Vec (ι × κ) → ℝ) := by
  classical
  refine ⟨convex_univ, fun x _ y _ a b ha hb _ => ?_⟩
  obtain ⟨lx, hlx⟩ := exists_eigGram x
  obtain ⟨u, v, hx⟩ := svd_of_eigGram hlx
  obtain ⟨ly, hly⟩ := exists_eigGram y
  obtain ⟨u', v', hy⟩ := svd_of_eigGram hly
  refine csSup_le ⟨0, 0, fun v => ?_, by simp⟩ ?_
  · have : matVec (0 : Vec (ι × κ)) v = 0 := by ext i; simp [matVec_apply]
    rw [this]; simp
  · rintro t ⟨w, hw, rfl⟩
    rw [inner_add_right, real_inner_smul_right, real_inner_smul_right, nucNorm_svd hx, nucNorm_svd hy]
    exact add_le_add (mul_le_mul_of_nonneg_left (svd_inner_le hx hw) ha) (mul_le_mul_of_nonneg_left (svd_inner_le hy hw) hb)

/-- C60: `Nuclear.prox` returns the unique minimiser of `sigma ‖Y‖_* + ‖Y-X‖_F²/(2 tau)`. -/
theorem C60_nuclear_prox (hρ : Fintype.card ρ = min (Fintype.card ι) (Fintype.card κ)) (svd : Vec (ι × κ) → SVD ι κ ρ)
    (hsvd : SvdExact svd) (eig : Vec (ι × κ) → κ → ℝ) (σ : ℝ) (hσ : 0 ≤ σ) (x : Vec (ι × κ)) (τ : ℝ) (hτ : 0 < τ) :
    ∃ p, (Nuclear svd eig σ).prox x τ = .ok p ∧ IsUniqueProx (XFun.ofReal fun y => σ * nucNorm y) τ x p := by
  refine ⟨_, by simp only [ProxOp.prox, Nuclear, checkTau_pos hτ]; rfl, ?_⟩
  have hvec : IsProx (XFun.ofReal fun s : Vec ρ => σ * ∑ k, |s k|) τ (vmk (svd x).s) (vmk fun k => softScalar ((svd x).s k) (τ * σ)) := by
    refine (sep_isUniqueProx_real (fun _ : ρ => fun a => σ * |a|) _ ?_ ?_).1
    · intro y; rw [Finset.mul_sum]
    · intro k; exact soft_isUniqueProx hσ hτ _
  have hconv : (XFun.ofReal fun y : Vec (ι × κ) => σ * nucNorm y).Convex := by
    have := (nucNorm_convex (ι := ι) (κ := κ)).smul hσ
    simpa only [XFun.Convex, XFun.ofReal, smul_eq_mul] using this
  have hp := spectral_isProx hρ (XFun.ofReal fun s : Vec ρ => σ * ∑ k, |s k|) (XFun.ofReal fun y => σ * nucNorm y) (fun y u s v h => ⟨by simp [XFun.ofReal], by
      simp only [XFun.ofReal]
      rw [nucNorm_svd h]
      congr 1
      exact Finset.sum_congr rfl fun k _ => (abs_of_nonneg (h.nonneg k)).symm⟩)
    (fun π s _ => ⟨trivial, by simp only [XFun.ofReal]; rw [Equiv.sum_comp π (fun k => |s k|)]⟩)
    (fun s _ => ⟨trivial, by simp only [XFun.ofReal, abs_abs]⟩) hτ (hsvd x) hvec
  exact ⟨hp, fun q hq => IsProx.unique hconv hτ hp hq⟩

/-- C60: evaluating `Nuclear` gives `sigma` times the nuclear norm. -/
theorem C60_nuclear_call (svd : Vec (ι × κ) → SVD ι κ ρ) (eig : Vec (ι × κ) → κ → ℝ) (heig : ∀ x, IsEigGram x (eig x)) (σ : ℝ) :
    EvaluatesNum (Nuclear svd eig σ) (fun y => σ * nucNorm y) := by
  intro x
  simp only [Nuclear]
  rw [nucNorm_eigGram (heig x), Finset.mul_sum]
  refine congrArg _ (congrArg _ (Finset.sum_congr rfl fun k _ => ?_))
  rw [if_neg (not_lt.2 (eigGram_nonneg (heig x) k))]

/-- The hypotheses are met: every shape has exact decompositions. -/
theorem exists_svdExact (hρ : Fintype.card ρ = min (Fintype.card ι) (Fintype.card κ)) :
    ∃ (svd : Vec (ι × κ) → SVD ι κ ρ) (eig : Vec (ι × κ) → κ → ℝ), SvdExact svd ∧ ∀ x, IsEigGram x (eig x) := by
  choose u s v h using fun x : Vec (ι × κ) => exists_svd x hρ
  choose e he using fun x : Vec (ι × κ) => exists_eigGram x
  exact ⟨fun x => ⟨u x, s x, v x⟩, e, h, he⟩

example : ∃ (svd : Vec (Fin 3 × Fin 2) → SVD (Fin 3) (Fin 2) (Fin 2)) (eig : Vec (Fin 3 × Fin 2) → Fin 2 → ℝ),
    SvdExact svd ∧ ∀ x, IsEigGram x (eig x) := exists_svdExact (by simp)

/-! ## C71: NuclearBall -/

/-- C71, partial: for a matrix on or outside the ball the result is within `xtol * sqrt(min m n)` of a projection onto
the nuclear norm ball.  Missing: matrices strictly inside the ball, where it is false (`C71_nuclearball_interior_refuted`). -/
theorem C71_nuclearball_prox_partial (hρ : Fintype.card ρ = min (Fintype.card ι) (Fintype.card κ)) [Nonempty ρ]
    (svd : Vec (ι × κ) → SVD ι κ ρ) (hsvd : SvdExact svd) (nuc : Vec (ι × κ) → ℝ) (bisect : (ℝ → ℝ) → ℝ → ℝ → ℝ) (xtol : ℝ)
    (hb : BisectTol bisect xtol) (radius tol : ℝ) (hr : 0 ≤ radius) (x : Vec (ι × κ)) (hx : radius ≤ nucNorm x) (τ : ℝ) (hτ : 0 < τ) :
    ∃ N, ∀ fuel, N ≤ fuel → ∃ p q, (NuclearBall svd nuc bisect fuel radius tol).prox x τ = .ok p ∧
      IsUniqueProj {y : Vec (ι × κ) | nucNorm y ≤ radius} x q ∧ ‖p - q‖ ≤ xtol * √(Fintype.card ρ) := by
  have hS := hsvd x
  have hsum : ∑ k, |(vmk (svd x).s : Vec ρ) k| = nucNorm x := by
    rw [nucNorm_svd hS]
    exact Finset.sum_congr rfl fun k _ => abs_of_nonneg (hS.nonneg k)
  obtain ⟨N, h⟩ := C27_l1ball_prox_partial bisect xtol hb radius tol hr (vmk (svd x).s) (by rw [hsum]; exact hx) τ hτ
  refine ⟨N, fun fuel hf => ?_⟩
  obtain ⟨t, q, h1, h2, h3⟩ := h fuel hf
  have h1' : l1BallProj bisect fuel radius (vmk (svd x).s) = .ok t := by
    simpa only [ProxOp.prox, L1Ball, checkTau_pos hτ] using h1
  refine ⟨recon (svd x).u (fun k => t k) (svd x).v, recon (svd x).u (fun k => q k) (svd x).v, ?_, ?_, ?_⟩
  · simp only [ProxOp.prox, NuclearBall, checkTau_pos hτ, h1', bind, Except.bind, pure, Except.pure]
  · rw [← isUniqueProj_iff_isUniqueProx hτ] at h2 ⊢
    have hconv : (XFun.indicator {y : Vec (ι × κ) | nucNorm y ≤ radius}).Convex := by
      refine indicator_convex ?_
      have := (nucNorm_convex (ι := ι) (κ := κ)).convex_le radius
      simpa using this
    have hp := spectral_isProx hρ (XFun.indicator {y : Vec ρ | ∑ i, |y i| ≤ radius}) (XFun.indicator {y : Vec (ι × κ) | nucNorm y ≤ radius}) (fun y u s v h => ⟨by
        simp only [XFun.indicator, Set.mem_ofPred_eq]
        rw [nucNorm_svd h]
        rw [show ∑ k, |(vmk s : Vec ρ) k| = ∑ k, s k from Finset.sum_congr rfl fun k _ => abs_of_nonneg (h.nonneg k)], rfl⟩)
      (fun π s hs => ⟨by
        simp only [XFun.indicator, Set.mem_ofPred_eq] at hs ⊢
        rw [Equiv.sum_comp π (fun k => |s k|)]; exact hs, rfl⟩)
      (fun s hs => ⟨by simpa only [XFun.indicator, Set.mem_ofPred_eq, abs_abs] using hs, rfl⟩) hτ hS h2.1
    exact ⟨hp, fun q hq => IsProx.unique hconv hτ hp hq⟩
  · rw [recon_sub, norm_recon hS.left hS.right]
    exact h3

/-- C71, refutation of the full statement: with an exact root search every non-zero matrix strictly inside the ball is moved,
although it is its own projection. -/
theorem C71_nuclearball_interior_refuted (svd : Vec (ι × κ) → SVD ι κ ρ) (hsvd : SvdExact svd) (nuc : Vec (ι × κ) → ℝ)
    (bisect : (ℝ → ℝ) → ℝ → ℝ → ℝ) (hb : BisectTol bisect 0) (radius tol : ℝ) (x : Vec (ι × κ)) (hx : nucNorm x < radius)
    (hx0 : x ≠ 0) (τ : ℝ) (hτ : 0 < τ) :
    ∃ N, ∀ fuel, N ≤ fuel → ∃ p, (NuclearBall svd nuc bisect fuel radius tol).prox x τ = .ok p ∧
      p ≠ x ∧ IsUniqueProj {y : Vec (ι × κ) | nucNorm y ≤ radius} x x := by
  have hS := hsvd x
  have hsum : ∑ k, |(vmk (svd x).s : Vec ρ) k| = nucNorm x := by
    rw [nucNorm_svd hS]
    exact Finset.sum_congr rfl fun k _ => abs_of_nonneg (hS.nonneg k)
  have hs0 : (vmk (svd x).s : Vec ρ) ≠ 0 := by
    intro h0
    apply hx0
    rw [← norm_eq_zero, hS.eq_recon, norm_recon hS.left hS.right, h0, norm_zero]
  obtain ⟨N, h⟩ := C27_l1ball_interior_refuted bisect hb radius tol (vmk (svd x).s) (by rw [hsum]; exact hx) hs0 τ hτ
  refine ⟨N, fun fuel hf => ?_⟩
  obtain ⟨t, h1, h2, _⟩ := h fuel hf
  have h1' : l1BallProj bisect fuel radius (vmk (svd x).s) = .ok t := by
    simpa only [ProxOp.prox, L1Ball, checkTau_pos hτ] using h1
  refine ⟨recon (svd x).u (fun k => t k) (svd x).v, ?_, ?_, ?_⟩
  · simp only [ProxOp.prox, NuclearBall, checkTau_pos hτ, h1', bind, Except.bind, pure, Except.pure]
  · intro heq
    have h3 : recon (svd x).u (fun k => t k) (svd x).v - recon (svd x).u (svd x).s (svd x).v = 0 := by
      rw [heq, ← hS.eq_recon, sub_self]
    rw [recon_sub, ← norm_eq_zero, norm_recon hS.left hS.right, norm_eq_zero] at h3
    apply h2
    rw [← sub_eq_zero, ← h3]
    rfl
  · refine ⟨⟨hx.le, fun y _ => by simp⟩, fun q hq => ?_⟩
    have := hq.2 x hx.le
    rw [sub_self, norm_zero] at this
    exact (sub_eq_zero.1 (norm_eq_zero.1 (le_antisymm this (norm_nonneg _)))).symm

/-- C71: the membership test accepts exactly the matrices of nuclear norm below `radius + tol`. -/
theorem C71_nuclearball_call (svd : Vec (ι × κ) → SVD ι κ ρ) (bisect : (ℝ → ℝ) → ℝ → ℝ → ℝ) (fuel : ℕ) (radius tol : ℝ)
    (x : Vec (ι × κ)) : (NuclearBall svd nucNorm bisect fuel radius tol).call x = .ok (.bool true) ↔ nucNorm x < radius + tol := by
  simp only [NuclearBall, Except.ok.injEq, CallVal.bool.injEq, decide_eq_true_iff]
  constructor <;> intro h <;> linarith

/-! ## C72: SingularValuePenalty -/

/-- C72: if the penalty's `prox` is exact for a function `φ` of vectors that ignores the order and the signs of the entries, then
`SingularValuePenalty.prox` is exact for the function `Y ↦ φ(singular values of Y)`. -/
theorem C72_singular_value_penalty (hρ : Fintype.card ρ = min (Fintype.card ι) (Fintype.card κ)) (svd : Vec (ι × κ) → SVD ι κ ρ)
    (hsvd : SvdExact svd) (eig : Vec (ι × κ) → κ → ℝ) (penCall : Vec κ → Py CallVal) (pen : ProxOp (Vec ρ)) (φ : XFun (Vec ρ))
    (F : XFun (Vec (ι × κ)))
    (hF : ∀ y (u : ρ → Vec ι) (s : ρ → ℝ) (v : ρ → Vec κ), IsSVD y u s v → ((y ∈ F.dom ↔ vmk s ∈ φ.dom) ∧ F.val y = φ.val (vmk s)))
    (hperm : ∀ (π : Equiv.Perm ρ) (s : Vec ρ), s ∈ φ.dom → (vmk fun k => s (π k) : Vec ρ) ∈ φ.dom ∧ φ.val (vmk fun k => s (π k)) = φ.val s)
    (hsign : ∀ s : Vec ρ, s ∈ φ.dom → (vmk fun k => |s k| : Vec ρ) ∈ φ.dom ∧ φ.val (vmk fun k => |s k|) = φ.val s)
    (hpen : ProxExact pen φ) : ProxExact (SingularValuePenalty svd eig penCall pen) F := by
  intro x τ hτ
  obtain ⟨t, ht, htp⟩ := hpen (vmk (svd x).s) τ hτ
  refine ⟨recon (svd x).u (fun k => t k) (svd x).v, ?_, spectral_isProx hρ φ F hF hperm hsign hτ (hsvd x) htp⟩
  rw [prox_of_some (f := SingularValuePenalty svd eig penCall pen) rfl]
  simp only [checkTau_pos hτ, ht, bind, Except.bind, pure, Except.pure]

/-- The function of matrices induced by a function of vectors that ignores the order of the entries exists, and it is determined
by any choice of decompositions. -/
theorem C72_spectral_function_exists (hρ : Fintype.card ρ = min (Fintype.card ι) (Fintype.card κ)) (φ : XFun (Vec ρ))
    (hperm : ∀ (π : Equiv.Perm ρ) (s : Vec ρ), s ∈ φ.dom → (vmk fun k => s (π k) : Vec ρ) ∈ φ.dom ∧ φ.val (vmk fun k => s (π k)) = φ.val s)
    (hval : ∀ (π : Equiv.Perm ρ) (s : Vec ρ), φ.val (vmk fun k => s (π k)) = φ.val s) :
    ∃ F : XFun (Vec (ι × κ)), ∀ y (u : ρ → Vec ι) (s : ρ → ℝ) (v : ρ → Vec κ), IsSVD y u s v →
      ((y ∈ F.dom ↔ vmk s ∈ φ.dom) ∧ F.val y = φ.val (vmk s)) := by
  choose u s v h using fun x : Vec (ι × κ) => exists_svd x hρ
  refine ⟨⟨{y | vmk (s y) ∈ φ.dom}, fun y => φ.val (vmk (s y))⟩, fun y u' s' v' h' => ?_⟩
  obtain ⟨π, hπ⟩ := svd_unique (h y) h'
  have e1 : (vmk fun k => s' (π k) : Vec ρ) = vmk (s y) := by ext k; exact hπ k
  obtain ⟨π', hπ'⟩ := svd_unique h' (h y)
  have e2 : (vmk fun k => s y (π' k) : Vec ρ) = vmk s' := by ext k; exact hπ' k
  refine ⟨⟨fun hd => ?_, fun hd => ?_⟩, ?_⟩
  · rw [← e2]; exact (hperm π' (vmk (s y)) hd).1
  · change vmk (s y) ∈ φ.dom
    rw [← e1]; exact (hperm π (vmk s') hd).1
  · change φ.val (vmk (s y)) = _
    rw [← e1]; exact hval π (vmk s')

/-- C72: evaluating the penalty sums a per-entry function `g` with `g 0 = 0` over the singular values of the matrix. -/
theorem C72_singular_value_call (hρ : Fintype.card ρ = min (Fintype.card ι) (Fintype.card κ)) (svd : Vec (ι × κ) → SVD ι κ ρ)
    (eig : Vec (ι × κ) → κ → ℝ) (heig : ∀ x, IsEigGram x (eig x)) (g : ℝ → ℝ) (hg : g 0 = 0) (penCall : Vec κ → Py CallVal)
    (hpen : ∀ s, penCall s = .ok (.num (∑ k, g (s k)))) (pen : ProxOp (Vec ρ)) (x : Vec (ι × κ)) (u : ρ → Vec ι) (s : ρ → ℝ)
    (v : ρ → Vec κ) (hx : IsSVD x u s v) :
    (SingularValuePenalty svd eig penCall pen).call x = .ok (.num (∑ k, g (s k))) := by
  simp only [SingularValuePenalty, hpen]
  rw [← svd_sum_eig hρ (heig x) hx g hg]
  refine congrArg _ (congrArg _ (Finset.sum_congr rfl fun k _ => ?_))
  rw [if_neg (not_lt.2 (eigGram_nonneg (heig x) k))]

/-- The hypotheses of C72 are met by separable even penalties, for example `Σ_k |s_k| / (1 + |s_k|)`. -/
example (hρ : Fintype.card ρ = min (Fintype.card ι) (Fintype.card κ)) :
    ∃ F : XFun (Vec (ι × κ)), ∀ y (u : ρ → Vec ι) (s : ρ → ℝ) (v : ρ → Vec κ), IsSVD y u s v →
      ((y ∈ F.dom ↔ vmk s ∈ (XFun.ofReal fun s : Vec ρ => ∑ k, |s k| / (1 + |s k|)).dom) ∧
        F.val y = (XFun.ofReal fun s : Vec ρ => ∑ k, |s k| / (1 + |s k|)).val (vmk s)) :=
  C72_spectral_function_exists hρ _
    (fun π s _ => ⟨trivial, Equiv.sum_comp π (fun k => |s k| / (1 + |s k|))⟩)
    (fun π s => Equiv.sum_comp π (fun k => |s k| / (1 + |s k|)))

end Verif
