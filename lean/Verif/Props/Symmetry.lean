import Verif.Model.Primal
import Verif.Model.PrimalDual
import Verif.Model.ProjOps
import Verif.Model.NonConvex
import Verif.Lemmas.Loop
import Verif.Lemmas.Prox
import Mathlib.Analysis.InnerProductSpace.PiL2

/-!
# C108: results do not depend on the coordinates

Renaming the entries of the arrays (another order, C or Fortran layout, a transposed image), changing the sign of some entries, or any other orthonormal
change of coordinates of the data gives the same run in the new coordinates: every value given to the callback, the returned point, the values used by the
stopping tests and the exception raised.
-/

open scoped RealInnerProductSpace

namespace Verif

variable {E E' F F' : Type} [NormedAddCommGroup E] [InnerProductSpace ℝ E] [NormedAddCommGroup F] [InnerProductSpace ℝ F]
  [NormedAddCommGroup E'] [InnerProductSpace ℝ E'] [NormedAddCommGroup F'] [InnerProductSpace ℝ F']

/-! ## Specification -/

/-- `f'` is the object `f` seen in the coordinates `U`. -/
structure SameOp (U : E ≃ₗᵢ[ℝ] E') (f : ProxOp E) (f' : ProxOp E') : Prop where
  call : ∀ x, f'.call (U x) = f.call x
  prox : ∀ x τ, f'.prox (U x) τ = U <$> f.prox x τ
  proxdual : ∀ x τ, f'.proxdual (U x) τ = U <$> f.proxdual x τ
  grad : ∀ x, f'.grad (U x) = U <$> f.grad x

/-- `A'` is the linear operator `A` seen in the coordinates `U` of the model and `V` of the data. -/
structure SameLin (U : E ≃ₗᵢ[ℝ] E') (V : F ≃ₗᵢ[ℝ] F') (A : LinOp E F) (A' : LinOp E' F') : Prop where
  matvec : ∀ x, A'.matvec (U x) = V (A.matvec x)
  rmatvec : ∀ y, A'.rmatvec (V y) = U (A.rmatvec y)

/-! ## Loops -/

lemma py_ok_bind {α β : Type} (a : α) (k : α → Py β) : (Except.ok a : Py α) >>= k = k a := rfl

lemma py_error_bind {α β : Type} (e : PyErr) (k : α → Py β) : (Except.error e : Py α) >>= k = .error e := rfl

lemma py_map_ok {α β : Type} (a : α) (k : α → β) : k <$> (Except.ok a : Py α) = .ok (k a) := rfl

lemma py_map_error {α β : Type} (e : PyErr) (k : α → β) : k <$> (Except.error e : Py α) = .error e := rfl

lemma forRange_commute {S S' : Type} {b1 : ℕ → S → Py (S × Bool)} {b2 : ℕ → S' → Py (S' × Bool)} {π : S → S'}
    (h : ∀ i s, b2 i (π s) = Prod.map π id <$> b1 i s) : ∀ n i s, forRange b2 n i (π s) = π <$> forRange b1 n i s
  | 0, _, s => rfl
  | n + 1, i, s => by
    simp only [forRange, h]
    cases hb : b1 i s with
    | error e => rfl
    | ok q =>
      obtain ⟨s', bk⟩ := q
      cases bk with
      | true => rfl
      | false => exact forRange_commute h n (i + 1) s'

lemma mapPy_commute {α β : Type} (k : α → β) : ∀ {m : ℕ} (h : Fin m → Py α), mapPy (fun i => k <$> h i) = (fun p i => k (p i)) <$> mapPy h
  | 0, _ => by
    simp only [mapPy]
    exact congrArg Except.ok (funext fun i => i.elim0)
  | m + 1, h => by
    simp only [mapPy, mapPy_commute k fun i => h i.succ]
    cases h 0 with
    | error e => rfl
    | ok a =>
      cases mapPy (fun i => h i.succ) with
      | error e => rfl
      | ok t =>
        refine congrArg Except.ok (funext fun i => ?_)
        refine Fin.cases ?_ (fun j => ?_) i <;> simp

/-! ## The operator calculus -/

section Calculus

variable {U : E ≃ₗᵢ[ℝ] E'} {f : ProxOp E} {f' : ProxOp E'}

lemma moreauStep_commute {m : E → ℝ → Py E} {m' : E' → ℝ → Py E'} (h : ∀ x τ, m' (U x) τ = U <$> m x τ) (x : E) (τ : ℝ) :
    ProxOp.moreauStep m' (U x) τ = U <$> ProxOp.moreauStep m x τ := by
  simp only [ProxOp.moreauStep, checkTau, ← map_smul, h]
  split_ifs
  · rfl
  · simp

/-- An object that only defines `__call__` and `prox`: the other methods are those of the base class. -/
lemma sameOp_of_prox (hd : f.proxdual? = none) (hd' : f'.proxdual? = none) (hg : f.grad? = none) (hg' : f'.grad? = none) (hs : f'.sigmame = f.sigmame)
    (hc : ∀ x, f'.call (U x) = f.call x) {m : E → ℝ → Py E} {m' : E' → ℝ → Py E'} (hm : f.prox? = some m) (hm' : f'.prox? = some m')
    (h : ∀ x τ, m' (U x) τ = U <$> m x τ) : SameOp U f f' := by
  have hp : ∀ x τ, f'.prox (U x) τ = U <$> f.prox x τ := fun x τ => by simp only [ProxOp.prox, hm, hm', h]
  refine ⟨hc, hp, fun x τ => ?_, fun x => ?_⟩
  · simp only [ProxOp.proxdual, hd, hd', hm, hm', checkTau, moreauStep_commute h]
    split_ifs <;> rfl
  · simp only [ProxOp.grad, hg, hg', hs, hp]
    simp

/-- An object with its own `grad`. -/
lemma sameOp_of_prox' (hd : f.proxdual? = none) (hd' : f'.proxdual? = none) (hc : ∀ x, f'.call (U x) = f.call x) {m : E → ℝ → Py E} {m' : E' → ℝ → Py E'}
    (hm : f.prox? = some m) (hm' : f'.prox? = some m') (h : ∀ x τ, m' (U x) τ = U <$> m x τ) {k : E → Py E} {k' : E' → Py E'} (hk : f.grad? = some k) (hk' : f'.grad? = some k')
    (h' : ∀ x, k' (U x) = U <$> k x) : SameOp U f f' := by
  refine ⟨hc, fun x τ => by simp only [ProxOp.prox, hm, hm', h], fun x τ => ?_, fun x => by simp only [ProxOp.grad, hk, hk', h']⟩
  simp only [ProxOp.proxdual, hd, hd', hm, hm', checkTau, moreauStep_commute h]
  split_ifs <;> rfl

/-- C108 for the objects the library builds from others: `f + v`, `c * f`, `f.precomposition(a, b)`, the chain and the adjoint. -/
theorem C108_calculus {g : ProxOp E} {g' : ProxOp E'} (hf : SameOp U f f') (hg : SameOp U g g') (v b : E) (c a : ℝ) :
    SameOp U (f.sumOp v) (f'.sumOp (U v)) ∧ SameOp U (f.postOp c) (f'.postOp c) ∧ SameOp U (f.preOp a b) (f'.preOp a (U b)) ∧ SameOp U (f.chainOp g) (f'.chainOp g') ∧
      SameOp U f.adjoint f'.adjoint := by
  refine ⟨?_, ?_, ?_, ?_, ?_⟩
  · refine sameOp_of_prox' rfl rfl (fun x => ?_) rfl rfl (fun x τ => ?_) rfl rfl fun x => ?_
    · simp [ProxOp.sumOp, hf.call]
    · simp only [checkTau, ← map_smul, ← map_sub, hf.prox]; split_ifs <;> rfl
    · simp [hf.grad]
  · refine sameOp_of_prox' rfl rfl (fun x => ?_) rfl rfl (fun x τ => ?_) rfl rfl fun x => ?_
    · simp [ProxOp.postOp, hf.call]
    · simp only [checkTau, hf.prox]; split_ifs <;> rfl
    · simp [hf.grad]
  · refine sameOp_of_prox' rfl rfl (fun x => ?_) rfl rfl (fun x τ => ?_) rfl rfl fun x => ?_
    · simp only [ProxOp.preOp, ← map_smul, ← map_add, hf.call]
    · simp only [checkTau, ← map_smul, ← map_add, hf.prox]; split_ifs
      · rfl
      · simp
    · simp only [← map_smul, ← map_add, hf.grad]; simp
  · refine sameOp_of_prox' rfl rfl (fun x => rfl) rfl rfl (fun x τ => ?_) rfl rfl fun x => rfl
    simp only [checkTau, hf.prox, bind_map_left, hg.prox]
    split_ifs
    · rfl
    · simp
  · have hp : ∀ x τ, f'.adjoint.prox (U x) τ = U <$> f.adjoint.prox x τ := fun x τ => by
      simp only [ProxOp.prox, ProxOp.adjoint, checkTau, hf.proxdual]; split_ifs <;> rfl
    refine ⟨hf.call, hp, fun x τ => ?_, fun x => ?_⟩
    · simp only [ProxOp.proxdual, ProxOp.adjoint, checkTau, hf.prox]; split_ifs <;> rfl
    · have e : ∀ {D : Type} [NormedAddCommGroup D] [InnerProductSpace ℝ D] (k : ProxOp D) (y : D), k.adjoint.grad y = (do
          let p ← k.adjoint.prox y 1
          pure ((1 / (1 : ℝ)) • (y - p))) := fun k y => rfl
      rw [e, e, hp]
      simp

end Calculus

/-! ## Solvers -/

/-- The states of the solvers in other coordinates. -/
def PPState.map (U : E → E') (s : PPState E) : PPState E' := ⟨U s.x, s.pf, s.log.map U⟩

@[inherit_doc PPState.map]
def PGState.map (U : E → E') (s : PGState E) : PGState E' := ⟨U s.x, U s.y, s.t, s.tau, s.pfg, s.log.map U⟩

@[inherit_doc PPState.map]
def SplitState.map (U : E → E') (s : SplitState E) : SplitState E' := ⟨U s.x, U s.z, U s.u, s.log.map (Prod.map U U)⟩

@[inherit_doc PPState.map]
def SplitOpState.map (U : E → E') (V : F → F') (s : SplitOpState E F) : SplitOpState E' F' := ⟨U s.x, V s.z, V s.u, V s.Ax, s.log.map U⟩

@[inherit_doc PPState.map]
def TwistState.map (U : E → E') (s : TwistState E) : TwistState E' := ⟨U s.x, U s.xold, s.log.map U, s.cost⟩

@[inherit_doc PPState.map]
def PPXAState.map {m : ℕ} (U : E → E') (s : PPXAState E m) : PPXAState E' m := ⟨U s.x, U s.xold, fun i => U (s.y i), s.log.map U⟩

@[inherit_doc PPState.map]
def ConsState.map {m : ℕ} (U : E → E') (s : ConsState E m) : ConsState E' m := ⟨U s.xbar, U s.xold, fun i => U (s.x i), fun i => U (s.y i), s.log.map U⟩

@[inherit_doc PPState.map]
def GPGState.map {m : ℕ} (U : E → E') (s : GPGState E m) : GPGState E' m := ⟨U s.x, U s.y, s.t, fun i => U (s.zs i), s.log.map U⟩

@[inherit_doc PPState.map]
def PDState.map (U : E → E') (V : F → F') (s : PDState E F) : PDState E' F' := ⟨U s.x, V s.y, U s.xhat, s.log.map (Prod.map U V)⟩

@[inherit_doc PPState.map]
def DRState.map (U : E → E') (s : DRState E) : DRState E' := ⟨s.x.map U, U s.y, s.log.map (Prod.map U U)⟩

@[inherit_doc PPState.map]
def APDState.map (U : E → E') (V : F → F') (s : APDState E F) : APDState E' F' :=
  ⟨U s.x, V s.y, V s.Ax, U s.ATy, s.tau, s.mu, s.alpha, s.p, s.d, s.iiter, s.taus, s.mus, s.alphas, s.log.map U⟩

/-- The arguments of `AdaptivePrimalDual` in other coordinates. -/
def APDArgs.map (U : E → E') (a : APDArgs E F) : APDArgs E' F' := ⟨a.eta, a.s, a.delta, a.z.map U, a.Az.map U, a.niter, a.tol⟩

section Solvers

variable {U : E ≃ₗᵢ[ℝ] E'} {V : F ≃ₗᵢ[ℝ] F'} {f g : ProxOp E} {f' g' : ProxOp E'} {τ : ℝ}

lemma x0z0Init_commute (x0 z0 : Option E) : x0z0Init (x0.map U) (z0.map U) = Prod.map U U <$> x0z0Init x0 z0 := by
  cases x0 <;> cases z0 <;> rfl

lemma x0z0InitOp_commute {A : LinOp E F} {A' : LinOp E' F'} (hA : SameLin U V A A') (x0 : Option E) (z0 : Option F) :
    x0z0InitOp A' (x0.map U) (z0.map V) = Prod.map U V <$> x0z0InitOp A x0 z0 := by
  cases x0 <;> cases z0 <;> simp only [x0z0InitOp, Option.map, hA.matvec] <;> rfl

/-- C108 for `ADMM`. -/
theorem C108_admm (hf : SameOp U f f') (hg : SameOp U g g') (x0 z0 : Option E) (τ : ℝ) (n : ℕ) (gfirst : Bool) :
    ADMM f' g' (x0.map U) (z0.map U) τ n gfirst = SplitState.map U <$> ADMM f g x0 z0 τ n gfirst := by
  have key : ∀ i s, ADMM.body f' g' τ gfirst i (s.map U) = Prod.map (SplitState.map U) id <$> ADMM.body f g τ gfirst i s := fun i s => by
    simp only [ADMM.body, SplitState.map, ← map_add, ← map_sub, hf.prox, hg.prox]
    split_ifs <;> simp [hf.prox, hg.prox, ← map_add, ← map_sub, SplitState.map]
  have h := fun x z => forRange_commute key n 0 ⟨x, z, 0, []⟩
  simp only [SplitState.map, map_zero, List.map_nil] at h
  simp [ADMM, x0z0Init_commute, h]

/-- C108 for `HQS`. -/
theorem C108_hqs (hf : SameOp U f f') (hg : SameOp U g g') (x0 z0 : Option E) (tau : StepSpec) (n : ℕ) (gfirst : Bool) :
    HQS f' g' (x0.map U) (z0.map U) tau n gfirst = SplitState.map U <$> HQS f g x0 z0 tau n gfirst := by
  have key : ∀ i s, HQS.body f' g' tau gfirst i (s.map U) = Prod.map (SplitState.map U) id <$> HQS.body f g tau gfirst i s := fun i s => by
    simp only [HQS.body, SplitState.map, hf.prox, hg.prox]
    split_ifs <;> simp [hf.prox, hg.prox, SplitState.map]
  have h := fun x z => forRange_commute key n 0 ⟨x, z, 0, []⟩
  simp only [SplitState.map, map_zero, List.map_nil] at h
  simp [HQS, x0z0Init_commute, h]

/-- C108 for `DouglasRachfordSplitting`. -/
theorem C108_dr (hf : SameOp U f f') (hg : SameOp U g g') (x0 : E) (τ η : ℝ) (n : ℕ) (gfirst : Bool) :
    DouglasRachford f' g' (U x0) τ η n gfirst = Prod.map U (Prod.map U (List.map (Prod.map U U))) <$> DouglasRachford f g x0 τ η n gfirst := by
  have key : ∀ i s, DR.body f' g' τ η gfirst i (s.map U) = Prod.map (DRState.map U) id <$> DR.body f g τ η gfirst i s := fun i s => by
    simp only [DR.body, DRState.map, hf.prox, hg.prox]
    split_ifs <;> simp [hf.prox, hg.prox, ← map_add, ← map_sub, ← map_smul, DRState.map]
  have h := forRange_commute key n 0 ⟨none, x0, []⟩
  simp only [DRState.map, List.map_nil, Option.map_none] at h
  simp only [DouglasRachford, h, bind_map_left, map_bind]
  refine bind_congr fun s => ?_
  obtain ⟨x, y, l⟩ := s
  cases x <;> rfl

/-- C108 for `ProximalPoint`. -/
theorem C108_proximalpoint (hf : SameOp U f f') (x0 : E) (τ : ℝ) (n : ℕ) (tol : Option ℝ) :
    ProximalPoint f' (U x0) τ n tol = PPState.map U <$> ProximalPoint f x0 τ n tol := by
  have key : ∀ i s, ProximalPoint.body f' τ tol i (s.map U) = Prod.map (PPState.map U) id <$> ProximalPoint.body f τ tol i s := fun i s => by
    simp only [ProximalPoint.body, PPState.map, hf.prox]
    cases tol <;> simp [hf.call, PPState.map]
  exact forRange_commute key n 0 ⟨x0, none, []⟩

lemma backtrack_commute (hf : SameOp U f f') (hg : SameOp U g g') (x : E) (e β : ℝ) :
    ∀ n t z, backtrack f' g' (U x) e β n t (Option.map U z) = Prod.map U id <$> backtrack f g x e β n t z
  | 0, t, z => by cases z <;> rfl
  | n + 1, t, z => by
    simp only [backtrack, hf.grad, hf.call, bind_map_left, map_bind, ← map_smul, ← map_sub, hg.prox]
    refine bind_congr fun v => bind_congr fun w => bind_congr fun p => bind_congr fun q => ?_
    rw [LinearIsometryEquiv.inner_map_map, LinearIsometryEquiv.norm_map]
    split_ifs
    · rfl
    · exact backtrack_commute hf hg x e β n (t * β) (some w)

lemma pgStep_commute (hf : SameOp U f f') (hg : SameOp U g g') (a : PGArgs) (bt : Bool) (e : ℝ) (s : PGState E) :
    PG.step f' g' a bt e (s.map U) = Prod.map U id <$> PG.step f g a bt e s := by
  have hb := backtrack_commute hf hg s.y e a.β a.niterback s.tau none
  rw [Option.map_none] at hb
  simp only [PG.step, PGState.map, hb, hf.grad]
  split_ifs <;> simp [hf.grad, hg.prox, ← map_smul, ← map_sub, ← map_add]

/-- C108 for `ProximalGradient` in all its variants. -/
theorem C108_proximalgradient (hf : SameOp U f f') (hg : SameOp U g g') (x0 : E) (a : PGArgs) :
    ProximalGradient f' g' (U x0) a = PGState.map U <$> ProximalGradient f g x0 a := by
  have key : ∀ bt i s, PG.body f' g' a bt i (s.map U) = Prod.map (PGState.map U) id <$> PG.body f g a bt i s := fun bt i s => by
    simp only [PG.body, pgStep_commute hf hg]
    cases a.tol <;> simp [hf.call, hg.call, PGState.map]
  have h := fun bt t => forRange_commute (key bt) a.niter 0 ⟨x0, x0, 1, t, none, []⟩
  simp only [PGState.map, List.map_nil] at h
  simp only [ProximalGradient, map_bind]
  refine bind_congr fun _ => ?_
  split_ifs
  · rfl
  · cases a.tau <;> simp [h]

/-- C108 for `GeneralizedProximalGradient`. -/
theorem C108_generalized_pg {l m : ℕ} {fs : Fin l → ProxOp E} {fs' : Fin l → ProxOp E'} {gs : Fin m → ProxOp E} {gs' : Fin m → ProxOp E'} (hf : ∀ j, SameOp U (fs j) (fs' j))
    (hg : ∀ j, SameOp U (gs j) (gs' j)) (x0 : E) (tau : Option ℝ) (eps : StepSpec) (w : Option (List ℝ)) (η : ℝ) (n : ℕ) (acc : Accel) :
    GeneralizedProximalGradient fs' gs' (U x0) tau eps w η n acc = GPGState.map U <$> GeneralizedProximalGradient fs gs x0 tau eps w η n acc := by
  have key : ∀ w t i s, GPG.body fs' gs' w eps t η acc i (s.map U) = Prod.map (GPGState.map U) id <$> GPG.body fs gs w eps t η acc i s := fun w t i s => by
    simp only [GPG.body, GPGState.map, (hf _).grad, mapPy_commute U, bind_map_left, map_bind]
    refine bind_congr fun v => ?_
    have e1 : ∀ j : Fin m, (do
        let e ← eps.at (j : ℕ)
        if w j = 0 then .error .nanResult
        else (gs' j).prox ((2 : ℝ) • U s.y - U (s.zs j) - t • ∑ j, U (v j)) (t * e / w j) : Py E') = U <$> (do
        let e ← eps.at (j : ℕ)
        if w j = 0 then .error .nanResult
        else (gs j).prox ((2 : ℝ) • s.y - s.zs j - t • ∑ j, v j) (t * e / w j) : Py E) := fun j => by
      simp only [map_bind]
      refine bind_congr fun e => ?_
      split_ifs
      · rfl
      · rw [← (hg j).prox]; simp
    simp only [e1, mapPy_commute U, bind_map_left]
    refine bind_congr fun p => ?_
    simp [GPGState.map]
  have h := fun w t => forRange_commute (key w t) n 0 ⟨x0, x0, 1, fun _ => x0, []⟩
  simp only [GPGState.map, List.map_nil] at h
  simp only [GeneralizedProximalGradient]
  split_ifs
  · rfl
  · rfl
  · exact h _ _

/-- C108 for `PPXA`; `np.abs(.).max()` has to be the same in the new coordinates, as for another order of the entries and other signs. -/
theorem C108_ppxa {m : ℕ} {fs : Fin m → ProxOp E} {fs' : Fin m → ProxOp E'} (hf : ∀ j, SameOp U (fs j) (fs' j)) (w : Option (Fin m → ℝ)) (y0 : Fin m → E) (τ η : ℝ) (n : ℕ) (tol : ℝ)
    (mx : E → ℝ) (mx' : E' → ℝ) (hmx : ∀ x, mx' (U x) = mx x) : PPXA fs' w (fun i => U (y0 i)) τ η n tol mx' = PPXAState.map U <$> PPXA fs w y0 τ η n tol mx := by
  have key : ∀ w i s, PPXA.body fs' w τ η tol mx' i (s.map U) = Prod.map (PPXAState.map U) id <$> PPXA.body fs w τ η tol mx i s := fun w i s => by
    have e1 : ∀ j, (if w j = 0 then .error .nanResult else (fs' j).prox (U (s.y j)) (τ / w j) : Py E') = U <$> (if w j = 0 then .error .nanResult else (fs j).prox (s.y j) (τ / w j) : Py E) := fun j => by
      split_ifs
      · rfl
      · exact (hf j).prox _ _
    simp only [PPXA.body, PPXAState.map, e1, mapPy_commute U, bind_map_left, map_bind]
    refine bind_congr fun p => ?_
    have e2 : U s.x + η • (∑ i, w i • U (p i) - U s.x) - U s.xold = U (s.x + η • (∑ i, w i • p i - s.x) - s.xold) := by simp
    rw [e2, hmx]
    split_ifs <;> simp [PPXAState.map]
  have h := fun w => forRange_commute (key w) n 0 ⟨(1 / (m : ℝ)) • ∑ i, y0 i, (1 / (m : ℝ)) • ∑ i, y0 i, y0, []⟩
  simp only [PPXAState.map, List.map_nil, map_smul, map_sum] at h
  simp only [PPXA]
  split_ifs
  · rfl
  · cases w <;> exact h _

/-- C108 for `ConsensusADMM`, with the same condition on its stopping test. -/
theorem C108_consensus {m : ℕ} {fs : Fin m → ProxOp E} {fs' : Fin m → ProxOp E'} (hf : ∀ j, SameOp U (fs j) (fs' j)) (x0 : E) (τ : ℝ) (n : ℕ) (tol : ℝ) (mx : E → ℝ) (mx' : E' → ℝ)
    (hmx : ∀ x, mx' (U x) = mx x) : ConsensusADMM fs' (U x0) τ n tol mx' = ConsState.map U <$> ConsensusADMM fs x0 τ n tol mx := by
  have key : ∀ i s, ConsensusADMM.body fs' τ tol mx' i (s.map U) = Prod.map (ConsState.map U) id <$> ConsensusADMM.body fs τ tol mx i s := fun i s => by
    simp only [ConsensusADMM.body, ConsState.map, ← map_sub, (hf _).prox, mapPy_commute U, bind_map_left, map_bind]
    refine bind_congr fun x => ?_
    have e2 : (1 / (m : ℝ)) • ∑ i, U (x i) - U s.xold = U ((1 / (m : ℝ)) • ∑ i, x i - s.xold) := by simp
    rw [e2, hmx]
    split_ifs
    · rfl
    · simp [ConsState.map]
    · simp [ConsState.map]
  have h := forRange_commute key n 0 ⟨x0, x0, fun _ => x0, fun _ => 0, []⟩
  simp only [ConsState.map, List.map_nil, map_zero] at h
  exact h

variable {gF : ProxOp F} {gF' : ProxOp F'} {A : LinOp E F} {A' : LinOp E' F'}

/-- C108 for `LinearizedADMM`, with coordinates `U` for the model and `V` for the data. -/
theorem C108_linearized_admm (hf : SameOp U f f') (hg : SameOp V gF gF') (hA : SameLin U V A A') (x0 : Option E) (z0 : Option F) (τ μ : ℝ) (n : ℕ) :
    LinearizedADMM f' gF' A' (x0.map U) (z0.map V) τ μ n = SplitOpState.map U V <$> LinearizedADMM f gF A x0 z0 τ μ n := by
  have key : ∀ i s, LinearizedADMM.body f' gF' A' τ μ i (s.map U V) = Prod.map (SplitOpState.map U V) id <$> LinearizedADMM.body f gF A τ μ i s := fun i s => by
    simp only [LinearizedADMM.body, SplitOpState.map]
    split_ifs
    · rfl
    · simp only [← map_sub, ← map_add, hA.rmatvec, ← map_smul, hf.prox, bind_map_left, hA.matvec, hg.prox, map_bind]
      simp [SplitOpState.map]
  have h := fun x z Ax => forRange_commute key n 0 ⟨x, z, 0, Ax, []⟩
  simp only [SplitOpState.map, List.map_nil, map_zero] at h
  simp only [LinearizedADMM, x0z0InitOp_commute hA, bind_map_left, map_bind]
  refine bind_congr fun p => ?_
  cases z0 <;> simp [hA.matvec, h]

/-- C108 for `ADMML2`; the inner solver is a parameter and has to be the same in both coordinates. -/
theorem C108_admml2 {inv : E → F → ℝ → E} {inv' : E' → F' → ℝ → E'} (hinv : ∀ x d e, inv' (U x) (V d) e = U (inv x d e)) (hg : SameOp V gF gF') (hA : SameLin U V A A')
    (x0 : Option E) (z0 : Option F) (τ : ℝ) (n : ℕ) (gfirst : Bool) :
    ADMML2 inv' gF' A' (x0.map U) (z0.map V) τ n gfirst = SplitOpState.map U V <$> ADMML2 inv gF A x0 z0 τ n gfirst := by
  have key : ∀ i s, ADMML2.body inv' gF' A' τ gfirst i (s.map U V) = Prod.map (SplitOpState.map U V) id <$> ADMML2.body inv gF A τ gfirst i s := fun i s => by
    simp only [ADMML2.body, SplitOpState.map]
    split_ifs <;> simp only [← map_sub, ← map_add, hA.matvec, hinv, hg.prox, bind_map_left, map_bind] <;> simp [SplitOpState.map]
  have h := fun x z => forRange_commute key n 0 ⟨x, z, 0, 0, []⟩
  simp only [SplitOpState.map, List.map_nil, map_zero] at h
  simp only [ADMML2, x0z0InitOp_commute hA, bind_map_left, map_bind]
  refine bind_congr fun p => ?_
  split_ifs
  · rfl
  · rfl
  · exact h _ _

lemma twistGrad_commute (hA : SameLin U V A A') (b : F) (x : E) : twistGrad A' (V b) (U x) = U <$> twistGrad A b x := by
  simp only [twistGrad, L2.grad, py_map_ok, hA.matvec, ← map_sub, hA.rmatvec, map_smul]

/-- C108 for `TwIST`, including its cost history. -/
theorem C108_twist (hg : SameOp U g g') (hA : SameLin U V A A') (b : F) (x0 : E) (αβ : Option (ℝ × ℝ)) (eigs : ℝ × ℝ) (n : ℕ) (rc : Bool) :
    TwIST g' A' (V b) (U x0) αβ eigs n rc = TwistState.map U <$> TwIST g A b x0 αβ eigs n rc := by
  have key : ∀ α β i s, TwIST.body g' A' (V b) α β rc i (s.map U) = Prod.map (TwistState.map U) id <$> TwIST.body g A b α β rc i s := fun α β i s => by
    simp only [TwIST.body, TwistState.map, twistGrad_commute hA, bind_map_left, map_bind, ← map_sub, hg.prox]
    refine bind_congr fun v => bind_congr fun p => ?_
    have e : (1 - α) • U s.xold + (α - β) • U s.x + β • U p = U ((1 - α) • s.xold + (α - β) • s.x + β • p) := by simp
    rw [e]
    split_ifs
    · simp only [hg.call, map_bind, hA.matvec, ← map_sub, LinearIsometryEquiv.norm_map]
      simp [TwistState.map]
    · simp [TwistState.map]
  have h := fun α β x => forRange_commute (key α β) n 0 ⟨x, x0, [], []⟩
  simp only [TwistState.map, List.map_nil] at h
  have h2 : ∀ p : ℝ × ℝ, (do
      let g0 ← twistGrad A' (V b) (U x0)
      let x ← g'.prox (U x0 - g0) 1
      forRange (TwIST.body g' A' (V b) p.1 p.2 rc) n 0 ⟨x, U x0, [], []⟩) = TwistState.map U <$> (do
      let g0 ← twistGrad A b x0
      let x ← g.prox (x0 - g0) 1
      forRange (TwIST.body g A b p.1 p.2 rc) n 0 ⟨x, x0, [], []⟩) := fun p => by
    simp only [twistGrad_commute hA, bind_map_left, ← map_sub, hg.prox, h, map_bind]
  cases αβ with
  | some p => exact h2 p
  | none =>
    simp only [TwIST]
    cases twistParams eigs.1 eigs.2 with
    | error e => rfl
    | ok p => exact h2 p

/-- C108 for `PrimalDual`. -/
theorem C108_primaldual (hf : SameOp U f f') (hg : SameOp V gF gF') (hA : SameLin U V A A') (x0 : E) (y0 : Option F) (z : Option E) (tau mu : StepSpec) (θ : ℝ) (n : ℕ)
    (gfirst : Bool) : PrimalDual f' gF' A' (U x0) (y0.map V) (z.map U) tau mu θ n gfirst = PDState.map U V <$> PrimalDual f gF A x0 y0 z tau mu θ n gfirst := by
  have e0 : ∀ y, pdATy A' (z.map U) (V y) = U (pdATy A z y) := fun y => by cases z <;> simp [pdATy, hA.rmatvec]
  have key : ∀ i s, PrimalDual.body f' gF' A' (z.map U) tau mu θ gfirst i (s.map U V) = Prod.map (PDState.map U V) id <$> PrimalDual.body f gF A z tau mu θ gfirst i s := fun i s => by
    simp only [PrimalDual.body, PDState.map, map_bind]
    refine bind_congr fun t => bind_congr fun m => ?_
    split_ifs <;> simp only [hA.matvec, ← map_smul, ← map_add, ← map_sub, hg.proxdual, bind_map_left, map_bind, e0, hf.prox] <;> simp [PDState.map]
  have h := forRange_commute key n 0 ⟨x0, y0.getD 0, x0, []⟩
  have e1 : (y0.map V).getD 0 = V (y0.getD 0) := by cases y0 <;> simp
  simp only [PDState.map, List.map_nil] at h
  simpa only [PrimalDual, e1] using h

lemma apdBody_commute (hf : SameOp U f f') (hg : SameOp V gF gF') (hA : SameLin U V A A') (a : APDArgs E F) (s : APDState E F) :
    APD.body f' gF' A' (a.map U) (s.map U V) = APDState.map U V <$> APD.body f gF A a s := by
  have e0 : ∀ v, apdATy (a.z.map U) (U v) = U (apdATy a.z v) := fun v => by cases a.z <;> simp [apdATy]
  simp only [APD.body, APDState.map, APDArgs.map, e0, map_bind, ← map_smul, ← map_sub, hf.prox, bind_map_left, hA.matvec, ← map_add, hg.proxdual, hA.rmatvec]
  refine bind_congr fun x => bind_congr fun y => ?_
  cases hz : a.z with
  | none =>
    simp only [Option.map, LinearIsometryEquiv.norm_map, py_ok_bind, map_bind]
    refine bind_congr fun r => ?_
    simp [APDState.map]
  | some z =>
    cases hAz : a.Az with
    | none => rfl
    | some w =>
      simp only [Option.map, ← map_sub, ← map_add, LinearIsometryEquiv.norm_map, py_ok_bind, map_bind]
      refine bind_congr fun r => ?_
      simp [APDState.map]

lemma apdLoop_commute (hf : SameOp U f f') (hg : SameOp V gF gF') (hA : SameLin U V A A') (a : APDArgs E F) :
    ∀ n s, APD.loop f' gF' A' (a.map U) n (s.map U V) = APDState.map U V <$> APD.loop f gF A a n s
  | 0, s => by
    have hc : ((s.map U V).iiter < (a.map U : APDArgs E' F').niter ∧ (a.map U : APDArgs E' F').tol < (s.map U V).p ∧ (a.map U : APDArgs E' F').tol < (s.map U V).d) ↔
        (s.iiter < a.niter ∧ a.tol < s.p ∧ a.tol < s.d) := Iff.rfl
    simp only [APD.loop, hc]
    split_ifs <;> rfl
  | n + 1, s => by
    have hc : ((s.map U V).iiter < (a.map U : APDArgs E' F').niter ∧ (a.map U : APDArgs E' F').tol < (s.map U V).p ∧ (a.map U : APDArgs E' F').tol < (s.map U V).d) ↔
        (s.iiter < a.niter ∧ a.tol < s.p ∧ a.tol < s.d) := Iff.rfl
    simp only [APD.loop, hc, apdBody_commute hf hg hA, bind_map_left]
    split_ifs
    · simp only [map_bind, apdLoop_commute hf hg hA a n]
    · rfl

/-- C108 for `AdaptivePrimalDual`, including the three histories of the steps. -/
theorem C108_adaptive_primaldual (hf : SameOp U f f') (hg : SameOp V gF gF') (hA : SameLin U V A A') (x0 : E) (tau mu alpha : ℝ) (a : APDArgs E F) :
    AdaptivePrimalDual f' gF' A' (U x0) tau mu alpha (a.map U) = APDState.map U V <$> AdaptivePrimalDual f gF A x0 tau mu alpha a := by
  have h := apdLoop_commute hf hg hA a a.niter ⟨x0, 0, 0, 0, tau, mu, alpha, a.tol + 1, a.tol + 1, 0, [tau], [mu], [alpha], []⟩
  simp only [APDState.map, map_zero, List.map_nil] at h
  exact h

end Solvers

end Verif
