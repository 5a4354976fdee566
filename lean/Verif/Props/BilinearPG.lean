import Verif.Model.BilinearPG
import Verif.Props.LowRank
import Verif.Props.ProxGrad
import Verif.Props.Palm

/-! # C123: ProximalGradient on a bilinear operator -/

open scoped RealInnerProductSpace

set_option linter.unusedSectionVars false

namespace Verif

variable {E F : Type} [NormedAddCommGroup E] [InnerProductSpace ℝ E] [NormedAddCommGroup F] [InnerProductSpace ℝ F]

/-- The smooth function `(x, y) ↦ H(x, y)` of the concatenated vector. -/
def BilOp.fn (H : BilOp E F) (z : WithLp 2 (E × F)) : ℝ := H.call z.fst z.snd

/-- The vector of the two partial gradients of `H`, both taken at `z`. -/
noncomputable def BilOp.fullGrad (H : BilOp E F) (z : WithLp 2 (E × F)) : WithLp 2 (E × F) := WithLp.toLp 2 (H.gradx z.snd z.fst, H.grady z.fst z.snd)

/-- The smooth function with its gradient as an ordinary operator without memory. -/
noncomputable def BilOp.joint (H : BilOp E F) : ProxOp (WithLp 2 (E × F)) where
  call := fun z => .ok (.num (H.fn z))
  prox? := some fun _ _ => .error .attributeError
  proxdual? := some fun _ _ => .error .attributeError
  grad? := some fun z => .ok (H.fullGrad z)
  hasgrad := true
  sigmame := 1

section Aux

lemma backtrack_congr {V : Type} [NormedAddCommGroup V] [InnerProductSpace ℝ V] {f f' g : ProxOp V} {x : V} (h1 : f.grad x = f'.grad x) (h2 : f.call = f'.call) (e β : ℝ) :
    ∀ (n : ℕ) (τ : ℝ) (z : Option V), backtrack f g x e β n τ z = backtrack f' g x e β n τ z
  | 0, _, none => rfl
  | 0, _, some _ => rfl
  | n + 1, τ, _ => by simp only [backtrack, h1, h2, backtrack_congr h1 h2 e β n]

lemma stored_grad (H : BilOp E F) (z : WithLp 2 (E × F)) : (H.stored (blocks z)).grad z = H.joint.grad z := rfl

/-- One iteration with the stored blocks equal to those of the current point. -/
lemma pgbil_body_eq (H : BilOp E F) (g : ProxOp (WithLp 2 (E × F))) (a : PGArgs) (bt : Bool) (i : ℕ) (s : PGState (WithLp 2 (E × F)))
    (h : (bt = false ∧ a.eta ≠ 1) ∨ (s.y = s.x ∧ (bt = false ∨ a.eta = 1))) : PG.body (H.stored (blocks s.x)) g a bt i s = PG.body H.joint g a bt i s := by
  have hstep : ∀ e, PG.step (H.stored (blocks s.x)) g a bt e s = PG.step H.joint g a bt e s := by
    intro e
    rcases h with ⟨rfl, he⟩ | ⟨hy, hb⟩
    · simp only [PG.step, if_neg he, stored_grad]; rfl
    · rcases s with ⟨x, y, t, τ, pfg, log⟩
      obtain rfl : y = x := hy
      rcases bt with _ | _
      · simp only [PG.step, stored_grad]; rfl
      · rcases hb with hb | hb
        · cases hb
        · simp only [PG.step, if_pos hb]
          rw [backtrack_congr (f := H.stored (blocks y)) (f' := H.joint) (stored_grad H y) rfl]; rfl
  simp only [PG.body, hstep]
  rfl

lemma pgbody_y {V : Type} [NormedAddCommGroup V] [InnerProductSpace ℝ V] {f g : ProxOp V} {a : PGArgs} (ha : a.acceleration = .none) {bt : Bool} {i : ℕ} {s : PGState V} {r : PGState V × Bool}
    (h : PG.body f g a bt i s = .ok r) : r.1.y = r.1.x := by
  simp only [PG.body, Bind.bind, Except.bind] at h
  split at h
  · cases h
  · split at h
    · cases h
    · split at h
      · simp only [ha, momentum, Pure.pure, Except.pure] at h
        cases h; simp
      · simp only [ha, momentum] at h
        split at h
        · cases h
        · split at h
          · cases h
          · simp only [Pure.pure, Except.pure] at h
            cases h; simp

end Aux

/-- C123: what `ProximalGradient` does with a bilinear operator.  If the blocks stored in the object are those of `x0`, and either `eta ≠ 1` without backtracking, or there is no acceleration and not
both backtracking and `eta ≠ 1`, then the run is the one of `ProximalGradient` on the function `(x, y) ↦ H(x, y)` with its full gradient: the same result, callback arguments and exceptions, for every
`proxg`, step, tolerance and number of iterations.  The stored blocks end up being those of the returned point. -/
theorem C123_run_partial (H : BilOp E F) (g : ProxOp (WithLp 2 (E × F))) (x0 : WithLp 2 (E × F)) (a : PGArgs)
    (h : (a.tau.isSome ∧ a.backtracking = false ∧ a.eta ≠ 1) ∨ (a.acceleration = .none ∧ ((a.tau.isSome ∧ a.backtracking = false) ∨ a.eta = 1))) :
    PGBil H g (x0.fst, x0.snd) x0 a = (ProximalGradient H.joint g x0 a).map fun r => ((r.x.fst, r.x.snd), r) := by
  have main : ∀ bt, ((bt = false ∧ a.eta ≠ 1) ∨ (a.acceleration = .none ∧ (bt = false ∨ a.eta = 1))) → ∀ n i (s : PGState (WithLp 2 (E × F))),
      (a.acceleration = .none → s.y = s.x) →
      forRange (PGBil.body H g a bt) n i (blocks s.x, s) = (forRange (PG.body H.joint g a bt) n i s).map fun r => ((r.x.fst, r.x.snd), r) := by
    intro bt hc n
    induction n with
    | zero => intro i s _; rfl
    | succ n ih =>
      intro i s hy
      have e := pgbil_body_eq H g a bt i s (hc.imp id fun q => ⟨hy q.1, q.2⟩)
      cases hb : PG.body H.joint g a bt i s with
      | error er => simp [forRange, PGBil.body, e, hb, Bind.bind, Except.bind, Except.map]
      | ok r =>
        rcases r with ⟨s', b⟩
        have hy' : a.acceleration = .none → s'.y = s'.x := fun q => pgbody_y q hb
        rcases b with _ | _
        · simp only [forRange, PGBil.body, e, hb, Bind.bind, Except.bind, Pure.pure, Except.pure]
          simpa using ih (i + 1) s' hy'
        · simp only [forRange, PGBil.body, e, hb, Bind.bind, Except.bind, Pure.pure, Except.pure]
          rfl
  simp only [PGBil, ProximalGradient, Bind.bind, Except.bind]
  cases a.epsg.printCheck a.niter with
  | error er => rfl
  | ok _ =>
    by_cases ho : a.acceleration = .other
    · simp [ho, Except.map]
    · simp only [if_neg ho]
      rcases ht : a.tau with _ | τ
      · rw [ht] at h
        exact main true (by rcases h with ⟨h, -⟩ | ⟨h1, ⟨h2, -⟩ | h2⟩ <;> simp_all) a.niter 0 ⟨x0, x0, 1, 1, none, []⟩ (fun _ => rfl)
      · exact main a.backtracking (by rcases h with ⟨-, h⟩ | ⟨h1, ⟨-, h2⟩ | h2⟩ <;> simp_all) a.niter 0 ⟨x0, x0, 1, τ, none, []⟩ (fun _ => rfl)

/-- C123: whatever the options, after a run of at least one iteration the object stores the blocks of the point that is returned. -/
theorem C123_stored_blocks (H : BilOp E F) (g : ProxOp (WithLp 2 (E × F))) (st : E × F) (x0 : WithLp 2 (E × F)) (a : PGArgs) (hn : 0 < a.niter) {r : (E × F) × PGState (WithLp 2 (E × F))}
    (h : PGBil H g st x0 a = .ok r) : r.1 = (r.2.x.fst, r.2.x.snd) := by
  have main : ∀ bt n i s, 0 < n → forRange (PGBil.body H g a bt) n i s = .ok r → r.1 = (r.2.x.fst, r.2.x.snd) := by
    intro bt n
    induction n with
    | zero => intro i s h0; omega
    | succ n ih =>
      intro i s _ h
      simp only [forRange] at h
      cases hb : PGBil.body H g a bt i s with
      | error er => rw [hb] at h; cases h
      | ok q =>
        rcases q with ⟨s', b⟩
        have hs : s'.1 = (s'.2.x.fst, s'.2.x.snd) := by
          simp only [PGBil.body, Bind.bind, Except.bind] at hb
          split at hb
          · cases hb
          · simp only [Pure.pure, Except.pure] at hb; cases hb; rfl
        rw [hb] at h
        rcases b with _ | _
        · rcases n with _ | n
          · simp only [forRange] at h; cases h; exact hs
          · exact ih (i + 1) s' (by omega) h
        · simp only [if_true] at h; cases h; exact hs
  simp only [PGBil, Bind.bind, Except.bind] at h
  split at h
  · cases h
  · split at h
    · cases h
    · exact main _ _ _ _ hn h

/-! ## The function that is minimised -/

lemma isGrad_of_quad_near {V : Type} [NormedAddCommGroup V] [InnerProductSpace ℝ V] {f : V → ℝ} {x g : V} {C : ℝ}
    (h : ∀ y, ‖y - x‖ ≤ 1 → |f y - f x - ⟪g, y - x⟫| ≤ C * ‖y - x‖ ^ 2) : IsGrad f x g := by
  unfold IsGrad
  rw [hasFDerivAt_iff_isLittleO]
  have h2 : Filter.Tendsto (fun y : V => y - x) (nhds x) (nhds 0) := by
    have : Filter.Tendsto (fun y : V => y - x) (nhds x) (nhds (x - x)) := (continuous_id.sub continuous_const).tendsto x
    rwa [sub_self] at this
  have hO : (fun y => f y - f x - (innerSL ℝ g) (y - x)) =O[nhds x] fun y => ‖y - x‖ ^ 2 := by
    apply Asymptotics.IsBigO.of_bound C
    filter_upwards [h2.norm.eventually_le_const (show ‖(0 : V)‖ < 1 by simp)] with y hy
    simpa [Real.norm_eq_abs] using h y hy
  refine hO.trans_isLittleO ?_
  exact (Asymptotics.isLittleO_norm_pow_id (E' := V) (n := 2) one_lt_two).comp_tendsto h2

/-- C123: for the factorisation of the library the vector of the two partial gradients is the gradient of `½‖Op(X Y) - d‖²` as a function of both factors together, for every operator and shape. -/
theorem C123_lowrank_gradient {ι κ μ : Type} [Fintype ι] [Fintype κ] [Fintype μ] {D : Type} [NormedAddCommGroup D] [InnerProductSpace ℝ D] (L : LowRank ι κ μ D)
    (z : WithLp 2 (Vec (ι × κ) × Vec (κ × μ))) :
    L.bil.joint.grad z = .ok (L.bil.fullGrad z) ∧ IsGrad (fun w : WithLp 2 (Vec (ι × κ) × Vec (κ × μ)) => ‖L.Op.matvec (matMul w.fst w.snd) - L.d‖ ^ 2 / 2) z (L.bil.fullGrad z) := by
  refine ⟨rfl, ?_⟩
  let A := LinearMap.toContinuousLinearMap L.Op.matvec
  set R : D := L.d - L.Op.matvec (matMul z.fst z.snd) with hR
  refine isGrad_of_quad_near (C := ‖R‖ * ‖A‖ + (‖A‖ * (‖z.snd‖ + ‖z.fst‖ + 1)) ^ 2 / 2) fun w hw => ?_
  set u := (w - z).fst with hu
  set v := (w - z).snd with hv
  set δ := ‖w - z‖ with hδ
  have hsq : δ ^ 2 = ‖u‖ ^ 2 + ‖v‖ ^ 2 := WithLp.prod_norm_sq_eq_of_L2 _
  have hδ0 : 0 ≤ δ := norm_nonneg _
  have hu1 : ‖u‖ ≤ δ := le_of_sq_le_sq (by rw [hsq]; nlinarith [sq_nonneg ‖v‖]) hδ0
  have hv1 : ‖v‖ ≤ δ := le_of_sq_le_sq (by rw [hsq]; nlinarith [sq_nonneg ‖u‖]) hδ0
  have ew : w.fst = z.fst + u := by rw [hu]; simp
  have ew2 : w.snd = z.snd + v := by rw [hv]; simp
  have eprod : matMul w.fst w.snd = matMul z.fst z.snd + (matMul u z.snd + matMul z.fst v + matMul u v) := by
    rw [ew, ew2, matMul_add_left, show ∀ (p : Vec (ι × κ)), matMul p (z.snd + v) = matMul p z.snd + matMul p v from fun p => (mulLeft μ p).map_add _ _,
      show ∀ (p : Vec (ι × κ)), matMul p (z.snd + v) = matMul p z.snd + matMul p v from fun p => (mulLeft μ p).map_add _ _]
    abel
  set q := matMul u z.snd + matMul z.fst v + matMul u v with hq
  have eg : ⟪L.bil.fullGrad z, w - z⟫ = -⟪R, L.Op.matvec (matMul u z.snd + matMul z.fst v)⟫ := by
    have e1 : ⟪L.bil.fullGrad z, w - z⟫ = ⟪L.bil.gradx z.snd z.fst, u⟫ + ⟪L.bil.grady z.fst z.snd, v⟫ := rfl
    have e2 : ⟪L.bil.gradx z.snd z.fst, u⟫ = -⟪R, L.Op.matvec (matMul u z.snd)⟫ := by
      rw [← real_inner_comm R, L.Op.dot, matMul_adj_right, real_inner_comm]
      simp only [LowRank.bil, LowRank.gradx, LowRank.matvecx, matMul_neg_left, inner_neg_right]
      rfl
    have e3 : ⟪L.bil.grady z.fst z.snd, v⟫ = -⟪R, L.Op.matvec (matMul z.fst v)⟫ := by
      rw [← real_inner_comm R, L.Op.dot, matMul_adj_left, real_inner_comm]
      simp only [LowRank.bil, LowRank.grady, LowRank.matvecy, matMul_neg_left, inner_neg_right]
      rfl
    rw [e1, e2, e3, map_add, inner_add_right]; ring
  have ev : ‖L.Op.matvec (matMul w.fst w.snd) - L.d‖ ^ 2 / 2 - ‖L.Op.matvec (matMul z.fst z.snd) - L.d‖ ^ 2 / 2 - ⟪L.bil.fullGrad z, w - z⟫
      = -⟪R, L.Op.matvec (matMul u v)⟫ + ‖L.Op.matvec q‖ ^ 2 / 2 := by
    rw [norm_sub_rev, norm_sub_rev (L.Op.matvec (matMul z.fst z.snd)), ← hR, eprod, map_add, ← sub_sub, ← hR, norm_sub_sq_real, eg, hq, map_add L.Op.matvec (_ + _), inner_add_right]
    ring
  rw [ev]
  have b1 : |⟪R, L.Op.matvec (matMul u v)⟫| ≤ ‖R‖ * ‖A‖ * δ ^ 2 := by
    calc |⟪R, L.Op.matvec (matMul u v)⟫| ≤ ‖R‖ * ‖L.Op.matvec (matMul u v)‖ := abs_real_inner_le_norm _ _
      _ ≤ ‖R‖ * (‖A‖ * (δ * δ)) := mul_le_mul_of_nonneg_left ((A.le_opNorm _).trans (mul_le_mul_of_nonneg_left
          ((matMul_norm_le u v).trans (mul_le_mul hu1 hv1 (norm_nonneg _) hδ0)) (norm_nonneg _))) (norm_nonneg _)
      _ = _ := by ring
  have b2 : ‖q‖ ≤ (‖z.snd‖ + ‖z.fst‖ + 1) * δ := by
    have h1 := matMul_norm_le u z.snd
    have h2 := matMul_norm_le z.fst v
    have h3 := matMul_norm_le u v
    have h4 : ‖q‖ ≤ ‖matMul u z.snd‖ + ‖matMul z.fst v‖ + ‖matMul u v‖ := norm_add₃_le
    have h5 : ‖u‖ * ‖z.snd‖ ≤ δ * ‖z.snd‖ := mul_le_mul_of_nonneg_right hu1 (norm_nonneg _)
    have h6 : ‖z.fst‖ * ‖v‖ ≤ ‖z.fst‖ * δ := mul_le_mul_of_nonneg_left hv1 (norm_nonneg _)
    have h7 : ‖u‖ * ‖v‖ ≤ 1 * δ := mul_le_mul (hu1.trans hw) hv1 (norm_nonneg _) zero_le_one
    nlinarith
  have b3 : ‖L.Op.matvec q‖ ^ 2 / 2 ≤ (‖A‖ * (‖z.snd‖ + ‖z.fst‖ + 1)) ^ 2 / 2 * δ ^ 2 := by
    have h1 : ‖L.Op.matvec q‖ ≤ ‖A‖ * ((‖z.snd‖ + ‖z.fst‖ + 1) * δ) := (A.le_opNorm _).trans (mul_le_mul_of_nonneg_left b2 (norm_nonneg _))
    have h2 := pow_le_pow_left₀ (norm_nonneg _) h1 2
    calc ‖L.Op.matvec q‖ ^ 2 / 2 ≤ (‖A‖ * ((‖z.snd‖ + ‖z.fst‖ + 1) * δ)) ^ 2 / 2 := by linarith
      _ = _ := by ring
  calc |-⟪R, L.Op.matvec (matMul u v)⟫ + ‖L.Op.matvec q‖ ^ 2 / 2| ≤ |-⟪R, L.Op.matvec (matMul u v)⟫| + |‖L.Op.matvec q‖ ^ 2 / 2| := abs_add_le _ _
    _ ≤ ‖R‖ * ‖A‖ * δ ^ 2 + (‖A‖ * (‖z.snd‖ + ‖z.fst‖ + 1)) ^ 2 / 2 * δ ^ 2 := by
      rw [abs_neg, abs_of_nonneg (a := ‖L.Op.matvec q‖ ^ 2 / 2) (by positivity)]; exact add_le_add b1 b3
    _ = _ := by ring

section Joint
variable (H : BilOp E F) {g : ProxOp (WithLp 2 (E × F))} {G : XFun (WithLp 2 (E × F))} {τ ε β : ℝ}

/-- C123: with a fixed step every iterate is the documented one: the proximal step of `g` from the point, moved against the full gradient of `H` there. -/
theorem C123_steps (hg : ProxExact g G) (hτ : 0 < τ) (hε : 0 < ε) (x0 : WithLp 2 (E × F)) :
    ∃ X : ℕ → WithLp 2 (E × F), X 0 = x0 ∧ (∀ n, 0 < n → ∃ r, PGBil H g (x0.fst, x0.snd) x0 (pgArgs τ ε .none n) = .ok r ∧ r.2.x = X n) ∧
      ∀ n, IsProx G (ε * τ) (X n - τ • H.fullGrad (X n)) (X (n + 1)) := by
  choose P hP using fun x => hg x (ε * τ) (by positivity)
  obtain ⟨X, Y, t, hX0, hY0, -, hX, -, hY, h⟩ := pg_traj (f := H.joint) (g := g) (τ := τ) (ε := ε) (G := H.fullGrad) (P := P) (fun _ => rfl) (fun x => (hP x).1) .none (by decide) x0
  have hYX : ∀ n, Y n = X n := by
    intro n
    rcases n with _ | n
    · rw [hX0, hY0]
    · rw [hY]; simp [momentum]
  refine ⟨X, hX0, fun n hn => ?_, fun n => ?_⟩
  · rw [C123_run_partial H g x0 _ (.inr ⟨rfl, .inl ⟨rfl, rfl⟩⟩), h n hn]
    exact ⟨_, rfl, rfl⟩
  · have := (hP (Y n - τ • H.fullGrad (Y n))).2
    rw [← hX, hYX] at this
    exact this

/-- C123: if an iteration does not move the point, the point is critical: minus the gradient of `H` is a subgradient of `ε g` there. -/
theorem C123_stationary (hG : G.Convex) (hg : ProxExact g G) (hτ : 0 < τ) (hε : 0 < ε) (x0 : WithLp 2 (E × F)) (n : ℕ) (hn : 0 < n) {r r'}
    (hr : PGBil H g (x0.fst, x0.snd) x0 (pgArgs τ ε .none n) = .ok r) (hr' : PGBil H g (x0.fst, x0.snd) x0 (pgArgs τ ε .none (n + 1)) = .ok r') (h : r'.2.x = r.2.x) :
    IsSubgrad (G.smul ε) r.2.x (-H.fullGrad r.2.x) := by
  obtain ⟨X, -, h1, h2⟩ := C123_steps H hg hτ hε x0
  obtain ⟨q, e1, e2⟩ := h1 n hn
  obtain ⟨q', e1', e2'⟩ := h1 (n + 1) (by omega)
  rw [hr] at e1; cases e1
  rw [hr'] at e1'; cases e1'
  have h3 := h2 n
  rw [← e2, ← e2', h] at h3
  refine (prox_fix_iff (smulConvex hG hε.le) hτ _ _).1 ?_
  refine ⟨h3.1, fun y hy => ?_⟩
  have h4 := h3.2 y hy
  simp only [proxObj, XFun.smul] at h4 ⊢
  have e : ∀ c : ℝ, c / (2 * τ) = ε * (c / (2 * (ε * τ))) := fun c => by field_simp
  rw [e, e, ← mul_add, ← mul_add]
  exact mul_le_mul_of_nonneg_left h4 hε.le

/-- C123 with backtracking: `H` has no Lipschitz gradient on the whole space, yet every iteration either does not increase `H + ε g`, or has used up all its `niterback` trials. -/
theorem C123_backtracking_descent (hH : ∀ z, IsGrad H.fn z (H.fullGrad z)) (hg : ProxExact g G) (hτ : 0 < τ) (hε : 0 < ε) (hβ : 0 < β) (nb : ℕ) (hnb : 0 < nb) (x0 : WithLp 2 (E × F)) :
    ∃ (X : ℕ → WithLp 2 (E × F)) (θ : ℕ → ℝ), X 0 = x0 ∧ θ 0 = τ ∧
      (∀ n, 0 < n → ∃ r, PGBil H g (x0.fst, x0.snd) x0 (pgBackArgs τ β ε .none nb n) = .ok r ∧ r.2.x = X n ∧ r.2.tau = θ n) ∧
      ∀ n, 0 < θ n ∧ X (n + 1) ∈ G.dom ∧ (θ (n + 1) = θ n * β ^ nb ∨ (X n ∈ G.dom → H.fn (X (n + 1)) + ε * G.val (X (n + 1)) ≤ H.fn (X n) + ε * G.val (X n))) := by
  have hfc : EvaluatesNum H.joint H.fn := fun _ => rfl
  have hf : GradExact H.joint H.fn := fun z => ⟨_, rfl, hH z⟩
  obtain ⟨S, h0, h1, h2, h3⟩ := forRange_traj_nobreak (PG.body H.joint g (pgBackArgs τ β ε .none nb 0) true) (fun s => 0 < s.tau ∧ s.y = s.x)
    (fun _ s s' => s'.x ∈ G.dom ∧ (s'.tau = s.tau * β ^ nb ∨ (s.x ∈ G.dom → H.fn s'.x + ε * G.val s'.x ≤ H.fn s.x + ε * G.val s.x))) (fun i s hs => by
      obtain ⟨z, j, hj, hb, hacc, -⟩ := C43_backtracking (L := 0) hfc hf hg hε hβ hs.1 s.x nb hnb
      have hdom : z ∈ G.dom := by
        have key : ∀ (n : ℕ) (t : ℝ) (z' : Option (WithLp 2 (E × F))) (r : WithLp 2 (E × F)) (t' : ℝ), 0 < t → (∀ q, z' = some q → q ∈ G.dom) →
            backtrack H.joint g s.x ε β n t z' = .ok (r, t') → r ∈ G.dom := by
          intro n
          induction n with
          | zero =>
            intro t z' r t' _ hz h
            rcases z' with _ | q
            · cases h
            · cases h; exact hz _ rfl
          | succ n ih =>
            intro t z' r t' ht _ h
            obtain ⟨q, hq1, hq2⟩ := hg (s.x - t • H.fullGrad s.x) (ε * t) (by positivity)
            have e1 : H.joint.grad s.x = .ok (H.fullGrad s.x) := rfl
            have e2 : ∀ w, H.joint.call w = .ok (.num (H.fn w)) := fun _ => rfl
            simp only [backtrack, e1, hq1, e2, Bind.bind, Except.bind] at h
            split_ifs at h
            · cases h; exact hq2.1
            · exact ih (t * β) (some q) r t' (by positivity) (fun w hw => by cases hw; exact hq2.1) h
        exact key nb s.tau none z _ hs.1 (fun q hq => by cases hq) hb
      refine ⟨⟨z, z, s.t, s.tau * β ^ j, s.pfg, s.log ++ [z]⟩, ?_, ⟨by have := hs.1; positivity, rfl⟩, hdom, ?_⟩
      · simp [PG.body, PG.step, pgBackArgs, StepSpec.at, hs.2, hb, momentum, Bind.bind, Except.bind, Pure.pure, Except.pure]
      · rcases Nat.lt_or_ge j nb with hlt | hge
        · right
          intro hx
          obtain ⟨D, hD, hp, hdec⟩ := hacc hlt
          have hθ : 0 < s.tau * β ^ j := by have := hs.1; positivity
          have h4 := hp.2 s.x hx
          set θ := s.tau * β ^ j
          simp only [proxObj, XFun.smul] at h4
          have e1 : ‖z - (s.x - θ • D)‖ ^ 2 = ‖z - s.x‖ ^ 2 + 2 * θ * ⟪D, z - s.x⟫ + ‖θ • D‖ ^ 2 := by
            rw [show z - (s.x - θ • D) = (z - s.x) + θ • D by abel, norm_add_sq_real, inner_smul_right, real_inner_comm]; ring
          have e2 : ‖s.x - (s.x - θ • D)‖ ^ 2 = ‖θ • D‖ ^ 2 := by congr 2; abel
          rw [e1, e2] at h4
          have e3 : (‖z - s.x‖ ^ 2 + 2 * θ * ⟪D, z - s.x⟫ + ‖θ • D‖ ^ 2) / (2 * θ) = ‖z - s.x‖ ^ 2 / (2 * θ) + ⟪D, z - s.x⟫ + ‖θ • D‖ ^ 2 / (2 * θ) := by
            field_simp
          rw [e3] at h4
          show H.fn z + ε * G.val z ≤ _
          linarith
        · left
          rw [show j = nb by omega]) ⟨x0, x0, 1, τ, none, []⟩ ⟨hτ, rfl⟩
  refine ⟨fun n => (S n).x, fun n => (S n).tau, by simp [h0], by simp [h0], fun n hn => ?_, fun n => ⟨(h1 n).1, h2 n⟩⟩
  rw [C123_run_partial H g x0 _ (.inr ⟨rfl, .inr rfl⟩)]
  have e : ProximalGradient H.joint g x0 (pgBackArgs τ β ε .none nb n) = forRange (PG.body H.joint g (pgBackArgs τ β ε .none nb 0) true) n 0 ⟨x0, x0, 1, τ, none, []⟩ := by
    have e1 : (pgBackArgs τ β ε .none nb n).epsg.printCheck (pgBackArgs τ β ε .none nb n).niter = .ok () := by simp [pgBackArgs, StepSpec.printCheck, hn.ne']
    have e2 : (pgBackArgs τ β ε .none nb n).acceleration ≠ .other := by simp [pgBackArgs]
    rw [ProximalGradient, e1]
    simp only [Bind.bind, Except.bind, if_neg e2]
    rfl
  rw [e, h3 n]
  exact ⟨_, rfl, rfl, rfl⟩

end Joint

/-! ## Where the run is not the documented one -/

/-- The function zero. -/
noncomputable def noPenalty (V : Type) [NormedAddCommGroup V] [InnerProductSpace ℝ V] : ProxOp V where
  call := fun _ => .ok (.num 0)
  prox? := some fun x τ => checkTau τ (.ok x)
  proxdual? := none
  grad? := none
  hasgrad := false
  sigmame := 1

lemma noPenalty_exact (V : Type) [NormedAddCommGroup V] [InnerProductSpace ℝ V] : ProxExact (noPenalty V) (XFun.ofReal fun _ => 0) := fun x τ hτ =>
  ⟨x, by simp [ProxOp.prox, noPenalty, checkTau, hτ.not_ge], trivial, fun y _ => by simp [proxObj, XFun.ofReal]; positivity⟩

/-- A vector of two numbers. -/
abbrev bilPair (a b : ℝ) : WithLp 2 (ℝ × ℝ) := WithLp.toLp 2 (a, b)

section Pair
variable (a b c d : ℝ)
lemma bilPair_sub : bilPair a b - bilPair c d = bilPair (a - c) (b - d) := rfl
lemma bilPair_add : bilPair a b + bilPair c d = bilPair (a + c) (b + d) := rfl
lemma bilPair_smul : c • bilPair a b = bilPair (c * a) (c * b) := rfl
lemma bilPair_norm : ‖bilPair a b‖ ^ 2 = a ^ 2 + b ^ 2 := by rw [WithLp.prod_norm_sq_eq_of_L2]; simp
lemma bilPair_inner : ⟪bilPair a b, bilPair c d⟫ = a * c + b * d := by rw [WithLp.prod_inner_apply]; simp [mul_comm]
lemma bilPair_inj (h : bilPair a b = bilPair c d) : a = c ∧ b = d := ⟨congrArg (fun z => z.fst) h, congrArg (fun z => z.snd) h⟩
end Pair

lemma scalar_stored_grad (d : ℝ) (s : ℝ × ℝ) (x y : ℝ) : ((scalarBil d).stored s).grad (bilPair x y) = .ok (bilPair ((x * s.2 - d) * s.2) ((s.1 * y - d) * s.1)) := rfl

lemma scalar_joint_grad (d x y : ℝ) : (scalarBil d).joint.grad (bilPair x y) = .ok (bilPair ((x * y - d) * y) ((x * y - d) * x)) := rfl

lemma noPenalty_prox (x : WithLp 2 (ℝ × ℝ)) {τ : ℝ} (h : 0 < τ) : (noPenalty (WithLp 2 (ℝ × ℝ))).prox x τ = .ok x := by
  simp [ProxOp.prox, noPenalty, checkTau, h.not_ge]

/-- C123 fails when the object stores other blocks than those of `x0` (which the constructor and the solver allow): with `H(x, y) = ½ (x y - d)²`, stored zeros and no `g`, the first iteration returns `x0`
unchanged for every start and step, although `x0` is not a critical point and the documented step moves it. -/
theorem C123_stored_refuted (d x y τ : ℝ) (hτ : 0 < τ) (hd : x * y ≠ d) (hx : x ≠ 0) :
    (∃ r, PGBil (scalarBil d) (noPenalty _) (0, 0) (bilPair x y) (pgArgs τ 1 .none 1) = .ok r ∧ r.2.x = bilPair x y) ∧
    (∃ r, ProximalGradient (scalarBil d).joint (noPenalty _) (bilPair x y) (pgArgs τ 1 .none 1) = .ok r ∧ r.x ≠ bilPair x y) := by
  constructor
  · refine ⟨((x, y), ⟨bilPair x y, bilPair x y, 1, τ, none, [bilPair x y]⟩), ?_, rfl⟩
    have hp : (noPenalty (WithLp 2 (ℝ × ℝ))).prox (bilPair x y) (1 * τ) = .ok (bilPair x y) := noPenalty_prox _ (by linarith)
    have hg : ((scalarBil d).stored (0, 0)).grad (bilPair x y) = .ok 0 := by rw [scalar_stored_grad]; simp
    rw [one_mul] at hp
    simp [PGBil, forRange, PGBil.body, PG.body, PG.step, pgArgs, StepSpec.printCheck, StepSpec.at, hg, hp, momentum, Bind.bind, Except.bind, Pure.pure, Except.pure, blocks]
  · have hp : ∀ z, (noPenalty (WithLp 2 (ℝ × ℝ))).prox z (1 * τ) = .ok z := fun z => noPenalty_prox z (by linarith)
    obtain ⟨X, Y, t, hX0, hY0, -, hX, -, hY, h⟩ := pg_traj (f := (scalarBil d).joint) (g := noPenalty _) (τ := τ) (ε := 1) (G := (scalarBil d).fullGrad) (P := id) (fun _ => rfl) hp .none
      (by decide) (bilPair x y)
    refine ⟨_, h 1 one_pos, fun hc => ?_⟩
    simp only [hX 0, hY0, id] at hc
    have h2 : (x - τ * ((x * y - d) * y), y - τ * ((x * y - d) * x)) = (x, y) := congrArg (fun z => (z.fst, z.snd)) hc
    have h3 := congrArg Prod.snd h2
    have h4 : τ * ((x * y - d) * x) = 0 := by simp only at h3; linarith
    exact (mul_ne_zero hτ.ne' (mul_ne_zero (sub_ne_zero.2 hd) hx)) h4

lemma accel_body (f : ProxOp (WithLp 2 (ℝ × ℝ))) (n i : ℕ) {x y x' y' c t : ℝ} {log : List (WithLp 2 (ℝ × ℝ))} (hf : f.grad (bilPair y y) = .ok (bilPair c c)) (hx : x' = y - 1 / 2 * c)
    (hy : y' = x' + (i : ℝ) / (i + 3) * (x' - x)) : PG.body f (noPenalty _) (pgArgs (1 / 2) 1 .vandenberghe n) false i ⟨bilPair x x, bilPair y y, t, 1 / 2, none, log⟩ =
      .ok (⟨bilPair x' x', bilPair y' y', t, 1 / 2, none, log ++ [bilPair x' x']⟩, false) := by
  have hp : ∀ z, (noPenalty (WithLp 2 (ℝ × ℝ))).prox z (1 / 2) = .ok z := fun z => noPenalty_prox z (by norm_num)
  simp only [PG.body, PG.step, pgArgs, StepSpec.at, hf, momentum, Bind.bind, Except.bind, Pure.pure, Except.pure, one_mul, hp, if_true, bilPair_smul, bilPair_sub, bilPair_add, Bool.false_eq_true, if_false,
    ← hx, ← hy]

lemma accel_bil_body (n i : ℕ) {p x y x' y' t : ℝ} {log : List (WithLp 2 (ℝ × ℝ))} (hx : x' = y - 1 / 2 * (y * p * p)) (hy : y' = x' + (i : ℝ) / (i + 3) * (x' - x)) :
    PGBil.body (scalarBil 0) (noPenalty _) (pgArgs (1 / 2) 1 .vandenberghe n) false i ((p, p), ⟨bilPair x x, bilPair y y, t, 1 / 2, none, log⟩) =
      .ok (((x', x'), ⟨bilPair x' x', bilPair y' y', t, 1 / 2, none, log ++ [bilPair x' x']⟩), false) := by
  have hf : ((scalarBil 0).stored (p, p)).grad (bilPair y y) = .ok (bilPair (y * p * p) (y * p * p)) := by rw [scalar_stored_grad]; congr 2 <;> ring_nf
  simp only [PGBil.body, accel_body _ n i hf hx hy, Bind.bind, Except.bind, Pure.pure, Except.pure]
  rfl

lemma accel_joint_body (n i : ℕ) {x y x' y' t : ℝ} {log : List (WithLp 2 (ℝ × ℝ))} (hx : x' = y - 1 / 2 * (y * y * y)) (hy : y' = x' + (i : ℝ) / (i + 3) * (x' - x)) :
    PG.body (scalarBil 0).joint (noPenalty _) (pgArgs (1 / 2) 1 .vandenberghe n) false i ⟨bilPair x x, bilPair y y, t, 1 / 2, none, log⟩ =
      .ok (⟨bilPair x' x', bilPair y' y', t, 1 / 2, none, log ++ [bilPair x' x']⟩, false) := by
  have hf : (scalarBil 0).joint.grad (bilPair y y) = .ok (bilPair (y * y * y) (y * y * y)) := by rw [scalar_joint_grad]; congr 2 <;> ring_nf
  exact accel_body _ n i hf hx hy

/-- C123 fails with acceleration, even if the stored blocks are those of `x0`: the gradient is taken at the extrapolated point in one block and at the last iterate in the other.  With
`H(x, y) = ½ (x y)²`, `x0 = (1, 1)`, step `1/2` and `acceleration='vandenberghe'` the third iterate is not the one of the accelerated method. -/
theorem C123_acceleration_refuted :
    ∃ r r', PGBil (scalarBil 0) (noPenalty _) (1, 1) (bilPair 1 1) (pgArgs (1 / 2) 1 .vandenberghe 3) = .ok r ∧
      ProximalGradient (scalarBil 0).joint (noPenalty _) (bilPair 1 1) (pgArgs (1 / 2) 1 .vandenberghe 3) = .ok r' ∧ r.2.x ≠ r'.x := by
  have hb : PGBil (scalarBil 0) (noPenalty _) (1, 1) (bilPair 1 1) (pgArgs (1 / 2) 1 .vandenberghe 3) =
      forRange (PGBil.body (scalarBil 0) (noPenalty _) (pgArgs (1 / 2) 1 .vandenberghe 3) false) 3 0 ((1, 1), ⟨bilPair 1 1, bilPair 1 1, 1, 1 / 2, none, []⟩) := rfl
  have hj : ProximalGradient (scalarBil 0).joint (noPenalty _) (bilPair 1 1) (pgArgs (1 / 2) 1 .vandenberghe 3) =
      forRange (PG.body (scalarBil 0).joint (noPenalty _) (pgArgs (1 / 2) 1 .vandenberghe 3) false) 3 0 ⟨bilPair 1 1, bilPair 1 1, 1, 1 / 2, none, []⟩ := rfl
  have A : ∃ r, PGBil (scalarBil 0) (noPenalty _) (1, 1) (bilPair 1 1) (pgArgs (1 / 2) 1 .vandenberghe 3) = .ok r ∧ r.2.x = bilPair (27 / 64 * (1 - 49 / 512)) (27 / 64 * (1 - 49 / 512)) := by
    rw [hb]
    simp only [forRange]
    rw [accel_bil_body 3 0 (x' := 1 / 2) (y' := 1 / 2) (by norm_num) (by norm_num)]
    simp only [Bool.false_eq_true, if_false]
    rw [accel_bil_body 3 1 (x' := 7 / 16) (y' := 27 / 64) (by norm_num) (by norm_num)]
    simp only [Bool.false_eq_true, if_false]
    rw [accel_bil_body 3 2 (x' := 27 / 64 * (1 - 49 / 512)) (by norm_num) rfl]
    exact ⟨_, rfl, rfl⟩
  have B : ∃ r, ProximalGradient (scalarBil 0).joint (noPenalty _) (bilPair 1 1) (pgArgs (1 / 2) 1 .vandenberghe 3) = .ok r ∧
      r.x = bilPair (27 / 64 * (1 - 729 / 8192)) (27 / 64 * (1 - 729 / 8192)) := by
    rw [hj]
    simp only [forRange]
    rw [accel_joint_body 3 0 (x' := 1 / 2) (y' := 1 / 2) (by norm_num) (by norm_num)]
    simp only [Bool.false_eq_true, if_false]
    rw [accel_joint_body 3 1 (x' := 7 / 16) (y' := 27 / 64) (by norm_num) (by norm_num)]
    simp only [Bool.false_eq_true, if_false]
    rw [accel_joint_body 3 2 (x' := 27 / 64 * (1 - 729 / 8192)) (by norm_num) rfl]
    exact ⟨_, rfl, rfl⟩
  obtain ⟨r, h1, h2⟩ := A
  obtain ⟨r', h3, h4⟩ := B
  refine ⟨r, r', h1, h3, fun h => ?_⟩
  rw [h2, h4] at h
  have := (bilPair_inj _ _ _ _ h).1
  norm_num at this

/-- C123 fails with backtracking and `eta ≠ 1`, even if the stored blocks are those of `x0`: the gradient of the relaxed step is taken at the point the line search has found, but with the blocks of the
iterate before.  `H(x, y) = ½ (x y)²`, `x0 = (1, 1)`, first step `1/4`, `eta = 1/2`. -/
theorem C123_relaxed_backtracking_refuted (β : ℝ) (nb : ℕ) (hnb : 0 < nb) :
    ∃ r r', PGBil (scalarBil 0) (noPenalty _) (1, 1) (bilPair 1 1) ⟨some (1 / 4), true, β, .scalar 1, 1, nb, .none, 1 / 2, none⟩ = .ok r ∧
      ProximalGradient (scalarBil 0).joint (noPenalty _) (bilPair 1 1) ⟨some (1 / 4), true, β, .scalar 1, 1, nb, .none, 1 / 2, none⟩ = .ok r' ∧ r.2.x ≠ r'.x := by
  obtain ⟨m, rfl⟩ : ∃ m, nb = m + 1 := ⟨nb - 1, by omega⟩
  have hp : ∀ z, (noPenalty (WithLp 2 (ℝ × ℝ))).prox z (1 / 4) = .ok z := fun z => noPenalty_prox z (by norm_num)
  have key : ∀ (f : ProxOp (WithLp 2 (ℝ × ℝ))) (c : ℝ), f.grad (bilPair 1 1) = .ok (bilPair 1 1) → (∀ x y, f.call (bilPair x y) = .ok (.num ((x * y) ^ 2 / 2))) → f.grad (bilPair (3 / 4) (3 / 4)) = .ok (bilPair c c) →
      PG.body f (noPenalty _) ⟨some (1 / 4), true, β, .scalar 1, 1, m + 1, .none, 1 / 2, none⟩ true 0 ⟨bilPair 1 1, bilPair 1 1, 1, 1 / 4, none, []⟩ =
        .ok (⟨bilPair (3 / 4 - c / 8) (3 / 4 - c / 8), bilPair (3 / 4 - c / 8) (3 / 4 - c / 8), 1, 1 / 4, none, [bilPair (3 / 4 - c / 8) (3 / 4 - c / 8)]⟩, false) := by
    intro f c h1 h2 h3
    have e1 : bilPair 1 1 - (1 / 4 : ℝ) • bilPair 1 1 = bilPair (3 / 4) (3 / 4) := by rw [bilPair_smul, bilPair_sub]; norm_num
    have hb : backtrack f (noPenalty _) (bilPair 1 1) 1 β (m + 1) (1 / 4) none = .ok (bilPair (3 / 4) (3 / 4), 1 / 4) := by
      simp only [backtrack, h1, Bind.bind, Except.bind, e1, one_mul, hp, h2, CallVal.toReal, bilPair_sub, bilPair_inner, bilPair_norm]
      rw [if_pos (by norm_num)]
    have e2 : bilPair (3 / 4) (3 / 4) - (1 / 4 : ℝ) • bilPair c c = bilPair (3 / 4 - c / 4) (3 / 4 - c / 4) := by rw [bilPair_smul, bilPair_sub]; congr 2 <;> ring_nf
    have e3 : bilPair (3 / 4) (3 / 4) + (1 / 2 : ℝ) • (bilPair (3 / 4 - c / 4) (3 / 4 - c / 4) - bilPair (3 / 4) (3 / 4)) = bilPair (3 / 4 - c / 8) (3 / 4 - c / 8) := by
      rw [bilPair_sub, bilPair_smul, bilPair_add]; congr 2 <;> ring_nf
    have hne : ¬ ((1 : ℝ) / 2 = 1) := by norm_num
    simp only [PG.body, PG.step, StepSpec.at, Bind.bind, Except.bind, Pure.pure, Except.pure, hb, if_true, if_neg hne, h3, e2, one_mul, hp, e3, momentum, zero_smul, add_zero, List.nil_append]
  have k1 := key ((scalarBil 0).stored (1, 1)) (3 / 4) (by rw [scalar_stored_grad]; norm_num) (fun x y => by simp [BilOp.stored, scalarBil, blocks]) (by rw [scalar_stored_grad]; norm_num)
  have k2 := key (scalarBil 0).joint (27 / 64) (by rw [scalar_joint_grad]; norm_num) (fun x y => by simp [BilOp.joint, BilOp.fn, scalarBil]) (by rw [scalar_joint_grad]; norm_num)
  have A : ∃ r, PGBil (scalarBil 0) (noPenalty _) (1, 1) (bilPair 1 1) ⟨some (1 / 4), true, β, .scalar 1, 1, m + 1, .none, 1 / 2, none⟩ = .ok r ∧ r.2.x = bilPair (3 / 4 - 3 / 4 / 8) (3 / 4 - 3 / 4 / 8) := by
    have e : PGBil (scalarBil 0) (noPenalty _) (1, 1) (bilPair 1 1) ⟨some (1 / 4), true, β, .scalar 1, 1, m + 1, .none, 1 / 2, none⟩ =
      forRange (PGBil.body (scalarBil 0) (noPenalty _) ⟨some (1 / 4), true, β, .scalar 1, 1, m + 1, .none, 1 / 2, none⟩ true) 1 0 ((1, 1), ⟨bilPair 1 1, bilPair 1 1, 1, 1 / 4, none, []⟩) := rfl
    rw [e]
    simp only [forRange, PGBil.body, k1, Bind.bind, Except.bind, Pure.pure, Except.pure]
    exact ⟨_, rfl, rfl⟩
  have B : ∃ r, ProximalGradient (scalarBil 0).joint (noPenalty _) (bilPair 1 1) ⟨some (1 / 4), true, β, .scalar 1, 1, m + 1, .none, 1 / 2, none⟩ = .ok r ∧
      r.x = bilPair (3 / 4 - 27 / 64 / 8) (3 / 4 - 27 / 64 / 8) := by
    have e : ProximalGradient (scalarBil 0).joint (noPenalty _) (bilPair 1 1) ⟨some (1 / 4), true, β, .scalar 1, 1, m + 1, .none, 1 / 2, none⟩ =
      forRange (PG.body (scalarBil 0).joint (noPenalty _) ⟨some (1 / 4), true, β, .scalar 1, 1, m + 1, .none, 1 / 2, none⟩ true) 1 0 ⟨bilPair 1 1, bilPair 1 1, 1, 1 / 4, none, []⟩ := rfl
    rw [e]
    simp only [forRange, k2]
    exact ⟨_, rfl, rfl⟩
  obtain ⟨r, h1, h2⟩ := A
  obtain ⟨r', h3, h4⟩ := B
  refine ⟨r, r', h1, h3, fun h => ?_⟩
  rw [h2, h4] at h
  have := (bilPair_inj _ _ _ _ h).1
  norm_num at this

/-! ## The hypotheses are met -/

/-- The factorisation of the library, with any data, gives the hypothesis of `C123_backtracking_descent`. -/
example {ι κ μ : Type} [Fintype ι] [Fintype κ] [Fintype μ] {D : Type} [NormedAddCommGroup D] [InnerProductSpace ℝ D] (L : LowRank ι κ μ D) (z : WithLp 2 (Vec (ι × κ) × Vec (κ × μ))) :
    IsGrad L.bil.fn z (L.bil.fullGrad z) := by
  have h := (C123_lowrank_gradient L z).2
  have e : L.bil.fn = fun w : WithLp 2 (Vec (ι × κ) × Vec (κ × μ)) => ‖L.Op.matvec (matMul w.fst w.snd) - L.d‖ ^ 2 / 2 := by
    funext w; simp only [BilOp.fn, LowRank.bil, C63_call]
  rw [e]; exact h

/-- A run that meets the conditions of `C123_run_partial` and returns. -/
example : ∃ r, PGBil (scalarBil 2) (noPenalty _) (1, 3) (bilPair 1 3) (pgArgs (1 / 2) 1 .none 7) = .ok r := by
  obtain ⟨X, -, h, -⟩ := C123_steps (scalarBil 2) (noPenalty_exact (WithLp 2 (ℝ × ℝ))) (τ := 1 / 2) (ε := 1) (by norm_num) one_pos (bilPair 1 3)
  obtain ⟨r, h, -⟩ := h 7 (by norm_num)
  exact ⟨r, h⟩

end Verif
