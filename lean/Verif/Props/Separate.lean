import Verif.Props.Symmetry
import Verif.Props.Dykstra

/-!
# C109: Independent parts of a problem are solved independently

If the operators act on one part of the array without looking at the rest, the solvers do too: the part of the result is the result for the part alone.
-/

open scoped RealInnerProductSpace

namespace Verif

variable {E E' F F' : Type} [NormedAddCommGroup E] [InnerProductSpace ℝ E] [NormedAddCommGroup E'] [InnerProductSpace ℝ E'] [NormedAddCommGroup F] [InnerProductSpace ℝ F]
  [NormedAddCommGroup F'] [InnerProductSpace ℝ F']

/-! ## Specification -/

/-- On the part `π` of the array, `f` does what `f'` does on that part alone, whatever the rest contains. -/
structure PartOf (π : E →ₗ[ℝ] E') (f : ProxOp E) (f' : ProxOp E') : Prop where
  prox : ∀ x τ p, f.prox x τ = .ok p → f'.prox (π x) τ = .ok (π p)
  proxdual : ∀ x τ p, f.proxdual x τ = .ok p → f'.proxdual (π x) τ = .ok (π p)
  grad : ∀ x p, f.grad x = .ok p → f'.grad (π x) = .ok (π p)

/-- The linear operator `A` maps the part `π` of the model to the part `ρ` of the data by `A'`, and back. -/
structure PartLin (π : E →ₗ[ℝ] E') (ρ : F →ₗ[ℝ] F') (A : LinOp E F) (A' : LinOp E' F') : Prop where
  matvec : ∀ x, ρ (A.matvec x) = A'.matvec (π x)
  rmatvec : ∀ y, π (A.rmatvec y) = A'.rmatvec (ρ y)

/-! ## Computations that project -/

/-- Whenever `a` returns, `b` returns the projected result. -/
def PyLe {α β : Type} (φ : α → β) (a : Py α) (b : Py β) : Prop := ∀ r, a = .ok r → b = .ok (φ r)

section PyLe

variable {α α' β β' : Type}

lemma PyLe.pure {φ : α → β} {r : α} {r' : β} (h : φ r = r') : PyLe φ (Pure.pure r) (Pure.pure r') := by
  rintro _ ⟨⟩
  rw [h]; rfl

lemma PyLe.ok {φ : α → β} {r : α} {r' : β} (h : φ r = r') : PyLe φ (.ok r) (.ok r') := PyLe.pure h

lemma PyLe.error {φ : α → β} {e : PyErr} {b : Py β} : PyLe φ (.error e) b := by
  rintro _ ⟨⟩

lemma PyLe.bind {φ : α → β} {ψ : α' → β'} {a : Py α} {b : Py β} {k : α → Py α'} {k' : β → Py β'} (h : PyLe φ a b) (hk : ∀ r, PyLe ψ (k r) (k' (φ r))) :
    PyLe ψ (a >>= k) (b >>= k') := by
  intro r hr
  cases a with
  | error e => cases hr
  | ok v => rw [h v rfl]; exact hk v r hr

lemma PyLe.self (a : Py α) : PyLe id a a := fun _ h => h

lemma PyLe.ite {φ : α → β} {a a' : Py α} {b b' : Py β} {c : Prop} [Decidable c] (h : PyLe φ a b) (h' : PyLe φ a' b') :
    PyLe φ (if c then a else a') (if c then b else b') := by
  split_ifs
  · exact h
  · exact h'

lemma PyLe.elseR {φ : α → β} {a a' : Py α} {b b' : Py β} {c d : Prop} [Decidable c] [Decidable d] (hc : ¬c) (hd : ¬d) (h : PyLe φ a b) :
    PyLe φ (if c then a' else a) (if d then b' else b) := by
  rw [if_neg hc, if_neg hd]
  exact h

lemma PyLe.forRange {S S' : Type} {φ : S → S'} {body : ℕ → S → Py (S × Bool)} {body' : ℕ → S' → Py (S' × Bool)}
    (h : ∀ i s, PyLe (Prod.map φ id) (body i s) (body' i (φ s))) : ∀ n i s, PyLe φ (forRange body n i s) (forRange body' n i (φ s))
  | 0, _, _ => by rintro _ ⟨⟩; rfl
  | n + 1, i, s => by
    intro r hr
    have hb := h i s
    simp only [Verif.forRange] at hr ⊢
    cases hv : body i s with
    | error e => rw [hv] at hr; cases hr
    | ok v =>
      obtain ⟨s', brk⟩ := v
      rw [hv] at hr
      rw [hb _ hv]
      cases brk with
      | true => cases hr; rfl
      | false => exact PyLe.forRange h n (i + 1) s' r hr

lemma PyLe.mapPy {φ : α → β} {m : ℕ} {h : Fin m → Py α} {h' : Fin m → Py β} (hh : ∀ i, PyLe φ (h i) (h' i)) : PyLe (fun p i => φ (p i)) (mapPy h) (mapPy h') := by
  intro v hv
  exact mapPy_ok fun i => hh i _ (mapPy_inv hv i)

lemma PyLe.moreau {π : E →ₗ[ℝ] E'} {m : E → ℝ → Py E} {m' : E' → ℝ → Py E'} (h : ∀ x τ, PyLe π (m x τ) (m' (π x) τ)) (x : E) (τ : ℝ) :
    PyLe π (ProxOp.moreauStep m x τ) (ProxOp.moreauStep m' (π x) τ) := by
  unfold ProxOp.moreauStep
  rw [← map_smul]
  simp only [checkTau]
  refine PyLe.ite PyLe.error ((h _ _).bind fun p => PyLe.pure ?_)
  rw [map_sub, map_smul]

end PyLe

namespace PartOf

variable {π : E →ₗ[ℝ] E'} {f g : ProxOp E} {f' g' : ProxOp E'}

lemma proxLe (h : PartOf π f f') (x : E) (τ : ℝ) : PyLe π (f.prox x τ) (f'.prox (π x) τ) := h.prox x τ

lemma dualLe (h : PartOf π f f') (x : E) (τ : ℝ) : PyLe π (f.proxdual x τ) (f'.proxdual (π x) τ) := h.proxdual x τ

lemma gradLe (h : PartOf π f f') (x : E) : PyLe π (f.grad x) (f'.grad (π x)) := h.grad x

end PartOf

section Objects

variable {π : E →ₗ[ℝ] E'} {f g : ProxOp E} {f' g' : ProxOp E'}

/-- Objects that define `prox` only; `proxdual` and `grad` come from the base class. -/
lemma partOf_of_prox (hd : f.proxdual? = none) (hd' : f'.proxdual? = none) (hg : f.grad? = none) (hg' : f'.grad? = none) (hs : f'.sigmame = f.sigmame)
    {m : E → ℝ → Py E} {m' : E' → ℝ → Py E'} (hm : f.prox? = some m) (hm' : f'.prox? = some m') (h : ∀ x τ, PyLe π (m x τ) (m' (π x) τ)) : PartOf π f f' := by
  have hp : ∀ x τ, PyLe π (f.prox x τ) (f'.prox (π x) τ) := fun x τ => by simpa only [ProxOp.prox, hm, hm'] using h x τ
  refine ⟨hp, fun x τ => ?_, fun x => ?_⟩
  · simp only [ProxOp.proxdual, hd, hd', hm, hm', checkTau]
    exact PyLe.ite PyLe.error (PyLe.moreau h x τ)
  · simp only [ProxOp.grad, hg, hg', hs]
    refine (hp x _).bind fun p => PyLe.pure ?_
    rw [map_smul, map_sub]

lemma partOf_of_prox' (hd : f.proxdual? = none) (hd' : f'.proxdual? = none) {m : E → ℝ → Py E} {m' : E' → ℝ → Py E'} (hm : f.prox? = some m) (hm' : f'.prox? = some m')
    (h : ∀ x τ, PyLe π (m x τ) (m' (π x) τ)) {k : E → Py E} {k' : E' → Py E'} (hk : f.grad? = some k) (hk' : f'.grad? = some k') (h' : ∀ x, PyLe π (k x) (k' (π x))) :
    PartOf π f f' := by
  refine ⟨fun x τ p => by simpa only [ProxOp.prox, hm, hm'] using h x τ p, fun x τ => ?_, fun x p => by simpa only [ProxOp.grad, hk, hk'] using h' x p⟩
  simp only [ProxOp.proxdual, hd, hd', hm, hm', checkTau]
  exact PyLe.ite PyLe.error (PyLe.moreau h x τ)

/-- C109 for the calculus of operators: adding a linear term, scaling, shifting and chaining keep the parts apart. -/
theorem C109_calculus (hf : PartOf π f f') (hg : PartOf π g g') (v : E) (σ : ℝ) :
    PartOf π (f.sumOp v) (f'.sumOp (π v)) ∧ PartOf π (f.postOp σ) (f'.postOp σ) ∧ PartOf π (f.preOp σ v) (f'.preOp σ (π v)) ∧ PartOf π (f.chainOp g) (f'.chainOp g') ∧
      PartOf π f.adjoint f'.adjoint := by
  refine ⟨?_, ?_, ?_, ?_, ?_⟩
  · refine partOf_of_prox' rfl rfl rfl rfl (fun x τ => ?_) rfl rfl fun x => ?_
    · simp only [checkTau, ← map_smul, ← map_sub]
      exact PyLe.ite PyLe.error (hf.proxLe _ _)
    · exact (hf.gradLe x).bind fun p => PyLe.pure (map_add π p v)
  · refine partOf_of_prox' rfl rfl rfl rfl (fun x τ => ?_) rfl rfl fun x => ?_
    · simp only [checkTau]
      exact PyLe.ite PyLe.error (hf.proxLe _ _)
    · exact (hf.gradLe x).bind fun p => PyLe.pure (map_smul π σ p)
  · refine partOf_of_prox' rfl rfl rfl rfl (fun x τ => ?_) rfl rfl fun x => ?_
    · simp only [checkTau, ← map_smul, ← map_add]
      refine PyLe.ite PyLe.error ((hf.proxLe _ _).bind fun p => PyLe.pure ?_)
      rw [map_smul, map_sub]
    · simp only [← map_smul, ← map_add]
      exact (hf.gradLe _).bind fun p => PyLe.pure (map_smul π σ p)
  · refine partOf_of_prox' rfl rfl rfl rfl (fun x τ => ?_) rfl rfl fun x => PyLe.error
    simp only [checkTau]
    exact PyLe.ite PyLe.error ((hf.proxLe _ _).bind fun p => hg.proxLe _ _)
  · have hp : ∀ x τ, PyLe π (f.adjoint.prox x τ) (f'.adjoint.prox (π x) τ) := fun x τ => by
      simp only [ProxOp.prox, ProxOp.adjoint, checkTau]
      exact PyLe.ite PyLe.error (hf.dualLe _ _)
    refine ⟨hp, fun x τ => ?_, fun x => ?_⟩
    · simp only [ProxOp.proxdual, ProxOp.adjoint, checkTau]
      exact PyLe.ite PyLe.error (hf.proxLe _ _)
    · have e : ∀ {D : Type} [NormedAddCommGroup D] [InnerProductSpace ℝ D] (k : ProxOp D) (y : D), k.adjoint.grad y = (do
          let p ← k.adjoint.prox y 1
          pure ((1 / (1 : ℝ)) • (y - p))) := fun k y => rfl
      rw [e, e]
      refine (hp x _).bind fun p => PyLe.pure ?_
      rw [map_smul, map_sub]

end Objects

/-! ## Solvers -/

section Solvers

variable {π : E →ₗ[ℝ] E'} {ρ : F →ₗ[ℝ] F'} {f g : ProxOp E} {f' g' : ProxOp E'}

lemma x0z0Init_le (x0 z0 : Option E) : PyLe (Prod.map π π) (x0z0Init x0 z0) (x0z0Init (x0.map π) (z0.map π)) := by
  cases x0 <;> cases z0 <;> rintro _ ⟨⟩ <;> rfl

lemma x0z0InitOp_le {A : LinOp E F} {A' : LinOp E' F'} (hA : PartLin π ρ A A') (x0 : Option E) (z0 : Option F) :
    PyLe (Prod.map π ρ) (x0z0InitOp A x0 z0) (x0z0InitOp A' (x0.map π) (z0.map ρ)) := by
  cases x0 <;> cases z0 <;> rintro _ ⟨⟩ <;> simp only [x0z0InitOp, Option.map, Prod.map, hA.matvec]

/-- C109 for `ADMM`. -/
theorem C109_admm (hf : PartOf π f f') (hg : PartOf π g g') (x0 z0 : Option E) (τ : ℝ) (n : ℕ) (gfirst : Bool) (s : SplitState E) (h : ADMM f g x0 z0 τ n gfirst = .ok s) :
    ADMM f' g' (x0.map π) (z0.map π) τ n gfirst = .ok (s.map π) := by
  refine ((x0z0Init_le x0 z0).bind fun p => ?_) s h
  have := PyLe.forRange (φ := SplitState.map π) (body := ADMM.body f g τ gfirst) (body' := ADMM.body f' g' τ gfirst) (fun i s => ?_) n 0 ⟨p.1, p.2, 0, []⟩
  · simpa only [SplitState.map, map_zero, List.map_nil, Prod.map] using this
  · simp only [ADMM.body, SplitState.map, ← map_add, ← map_sub]
    refine PyLe.ite ?_ ?_
    · refine (hg.proxLe _ _).bind fun z => ?_
      rw [← map_sub]
      refine (hf.proxLe _ _).bind fun x => PyLe.pure ?_
      simp [SplitState.map]
    · refine (hf.proxLe _ _).bind fun z => ?_
      rw [← map_add]
      refine (hg.proxLe _ _).bind fun x => PyLe.pure ?_
      simp [SplitState.map]

/-- C109 for `HQS`. -/
theorem C109_hqs (hf : PartOf π f f') (hg : PartOf π g g') (x0 z0 : Option E) (tau : StepSpec) (n : ℕ) (gfirst : Bool) (s : SplitState E)
    (h : HQS f g x0 z0 tau n gfirst = .ok s) : HQS f' g' (x0.map π) (z0.map π) tau n gfirst = .ok (s.map π) := by
  refine ((x0z0Init_le x0 z0).bind fun p => ?_) s h
  have := PyLe.forRange (φ := SplitState.map π) (body := HQS.body f g tau gfirst) (body' := HQS.body f' g' tau gfirst) (fun i s => ?_) n 0 ⟨p.1, p.2, 0, []⟩
  · simpa only [SplitState.map, map_zero, List.map_nil, Prod.map] using this
  · simp only [HQS.body, SplitState.map]
    refine (PyLe.self _).bind fun t => PyLe.ite ?_ ?_
    · refine (hg.proxLe _ _).bind fun z => (hf.proxLe _ _).bind fun x => PyLe.pure ?_
      simp [SplitState.map]
    · refine (hf.proxLe _ _).bind fun z => (hg.proxLe _ _).bind fun x => PyLe.pure ?_
      simp [SplitState.map]

/-- C109 for `DouglasRachfordSplitting`. -/
theorem C109_dr (hf : PartOf π f f') (hg : PartOf π g g') (x0 : E) (τ η : ℝ) (n : ℕ) (gfirst : Bool) (r : E × E × List (E × E)) (h : DouglasRachford f g x0 τ η n gfirst = .ok r) :
    DouglasRachford f' g' (π x0) τ η n gfirst = .ok (π r.1, π r.2.1, r.2.2.map (Prod.map π π)) := by
  have key := PyLe.forRange (φ := DRState.map π) (body := DR.body f g τ η gfirst) (body' := DR.body f' g' τ η gfirst) (fun i s => ?_) n 0 ⟨none, x0, []⟩
  · simp only [DRState.map, List.map_nil, Option.map_none] at key
    refine (PyLe.bind (ψ := fun r => (π r.1, π r.2.1, r.2.2.map (Prod.map π π))) key fun s => ?_) r h
    obtain ⟨x, y, l⟩ := s
    cases x
    · exact PyLe.error
    · exact PyLe.ok rfl
  · simp only [DR.body, DRState.map]
    refine PyLe.ite ?_ ?_
    · refine (hg.proxLe _ _).bind fun z => ?_
      rw [← map_smul, ← map_sub]
      refine (hf.proxLe _ _).bind fun x => PyLe.pure ?_
      simp [DRState.map]
    · refine (hf.proxLe _ _).bind fun z => ?_
      rw [← map_smul, ← map_sub]
      refine (hg.proxLe _ _).bind fun x => PyLe.pure ?_
      simp [DRState.map]

/-- C109 for `ProximalPoint` without a tolerance. -/
theorem C109_proximalpoint_partial (hf : PartOf π f f') (x0 : E) (τ : ℝ) (n : ℕ) (s : PPState E) (h : ProximalPoint f x0 τ n none = .ok s) :
    ProximalPoint f' (π x0) τ n none = .ok (s.map π) := by
  refine PyLe.forRange (φ := PPState.map π) (body := ProximalPoint.body f τ none) (body' := ProximalPoint.body f' τ none) (fun i s => ?_) n 0 ⟨x0, none, []⟩ s h
  simp only [ProximalPoint.body, PPState.map]
  refine (hf.proxLe _ _).bind fun x => PyLe.pure ?_
  simp [PPState.map]

/-- C109 for `ProximalGradient` with a given step and no tolerance, accelerated or not, relaxed or not. -/
theorem C109_proximalgradient_partial (hf : PartOf π f f') (hg : PartOf π g g') (x0 : E) (a : PGArgs) (t : ℝ) (ht : a.tau = some t) (hb : a.backtracking = false) (htol : a.tol = none) (s : PGState E)
    (h : ProximalGradient f g x0 a = .ok s) : ProximalGradient f' g' (π x0) a = .ok (s.map π) := by
  have key := fun t => PyLe.forRange (φ := PGState.map π) (body := PG.body f g a false) (body' := PG.body f' g' a false) (fun i s => ?_) a.niter 0 ⟨x0, x0, 1, t, none, []⟩
  · simp only [PGState.map, List.map_nil] at key
    revert s
    change PyLe (PGState.map π) _ _
    simp only [ProximalGradient, ht, hb]
    refine (PyLe.self _).bind fun _ => PyLe.ite PyLe.error ?_
    exact key t
  · simp only [PG.body, htol]
    refine (PyLe.self _).bind fun e => ?_
    refine PyLe.bind (φ := Prod.map π id) ?_ fun r => PyLe.pure ?_
    · simp only [PG.step, PGState.map, Bool.false_eq_true, if_false]
      refine PyLe.ite ?_ ?_
      · refine (hf.gradLe _).bind fun v => ?_
        rw [← map_smul, ← map_sub]
        exact (hg.proxLe _ _).bind fun x => PyLe.pure rfl
      · refine (hf.gradLe _).bind fun v => ?_
        rw [← map_smul, ← map_sub]
        refine (hg.proxLe _ _).bind fun x => PyLe.pure ?_
        simp
    · simp [PGState.map]

/-- C109 for `GeneralizedProximalGradient`. -/
theorem C109_generalized_pg {l m : ℕ} {fs : Fin l → ProxOp E} {fs' : Fin l → ProxOp E'} {gs : Fin m → ProxOp E} {gs' : Fin m → ProxOp E'} (hf : ∀ j, PartOf π (fs j) (fs' j))
    (hg : ∀ j, PartOf π (gs j) (gs' j)) (x0 : E) (tau : Option ℝ) (eps : StepSpec) (w : Option (List ℝ)) (η : ℝ) (n : ℕ) (acc : Accel) (s : GPGState E m)
    (h : GeneralizedProximalGradient fs gs x0 tau eps w η n acc = .ok s) : GeneralizedProximalGradient fs' gs' (π x0) tau eps w η n acc = .ok (s.map π) := by
  have key := fun w t => PyLe.forRange (φ := GPGState.map π) (body := GPG.body fs gs w eps t η acc) (body' := GPG.body fs' gs' w eps t η acc) (fun i s => ?_) n 0
    ⟨x0, x0, 1, fun _ => x0, []⟩
  · simp only [GPGState.map, List.map_nil] at key
    revert s
    change PyLe (GPGState.map π) _ _
    simp only [GeneralizedProximalGradient]
    exact PyLe.ite PyLe.error (PyLe.ite PyLe.error (key _ _))
  · simp only [GPG.body, GPGState.map]
    refine (PyLe.mapPy fun j => (hf j).gradLe _).bind fun v => ?_
    refine PyLe.bind (φ := fun p j => π (p j)) (PyLe.mapPy fun j => ?_) fun p => PyLe.pure ?_
    · refine (PyLe.self _).bind fun e => PyLe.ite PyLe.error ?_
      have : (2 : ℝ) • π s.y - π (s.zs j) - t • ∑ j, π (v j) = π ((2 : ℝ) • s.y - s.zs j - t • ∑ j, v j) := by simp
      rw [this]
      exact (hg j).proxLe _ _
    · simp [GPGState.map]

/-- C109 for `PPXA` when the tolerance does not stop it. -/
theorem C109_ppxa_partial {m : ℕ} {fs : Fin m → ProxOp E} {fs' : Fin m → ProxOp E'} (hf : ∀ j, PartOf π (fs j) (fs' j)) (w : Option (Fin m → ℝ)) (y0 : Fin m → E) (τ η : ℝ) (n : ℕ)
    (tol : ℝ) (htol : tol ≤ 0) (mx : E → ℝ) (mx' : E' → ℝ) (hmx : ∀ x, 0 ≤ mx x) (hmx' : ∀ x, 0 ≤ mx' x) (s : PPXAState E m) (h : PPXA fs w y0 τ η n tol mx = .ok s) :
    PPXA fs' w (fun i => π (y0 i)) τ η n tol mx' = .ok (s.map π) := by
  have key := fun w => PyLe.forRange (φ := PPXAState.map π) (body := PPXA.body fs w τ η tol mx) (body' := PPXA.body fs' w τ η tol mx') (fun i s => ?_) n 0
    ⟨(1 / (m : ℝ)) • ∑ i, y0 i, (1 / (m : ℝ)) • ∑ i, y0 i, y0, []⟩
  · simp only [PPXAState.map, List.map_nil, map_smul, map_sum] at key
    revert s
    change PyLe (PPXAState.map π) _ _
    simp only [PPXA]
    refine PyLe.ite PyLe.error ?_
    cases w <;> exact key _
  · simp only [PPXA.body, PPXAState.map]
    refine PyLe.bind (φ := fun p j => π (p j)) (PyLe.mapPy fun j => PyLe.ite PyLe.error ((hf j).proxLe _ _)) fun p => ?_
    refine PyLe.elseR (htol.trans (hmx _)).not_gt (htol.trans (hmx' _)).not_gt (PyLe.pure ?_)
    simp [PPXAState.map]

/-- C109 for `ConsensusADMM` when the tolerance does not stop it. -/
theorem C109_consensus_partial {m : ℕ} {fs : Fin m → ProxOp E} {fs' : Fin m → ProxOp E'} (hf : ∀ j, PartOf π (fs j) (fs' j)) (x0 : E) (τ : ℝ) (n : ℕ) (tol : ℝ) (htol : tol ≤ 0)
    (mx : E → ℝ) (mx' : E' → ℝ) (hmx : ∀ x, 0 ≤ mx x) (hmx' : ∀ x, 0 ≤ mx' x) (s : ConsState E m) (h : ConsensusADMM fs x0 τ n tol mx = .ok s) :
    ConsensusADMM fs' (π x0) τ n tol mx' = .ok (s.map π) := by
  have key := PyLe.forRange (φ := ConsState.map π) (body := ConsensusADMM.body fs τ tol mx) (body' := ConsensusADMM.body fs' τ tol mx') (fun i s => ?_) n 0
    ⟨x0, x0, fun _ => x0, fun _ => 0, []⟩
  · simp only [ConsState.map, List.map_nil, map_zero] at key
    exact key s h
  · simp only [ConsensusADMM.body, ConsState.map, ← map_sub]
    refine PyLe.bind (φ := fun p j => π (p j)) (PyLe.mapPy fun j => (hf j).proxLe _ _) fun p => ?_
    refine PyLe.ite PyLe.error ?_
    refine PyLe.elseR (htol.trans (hmx _)).not_gt (htol.trans (hmx' _)).not_gt (PyLe.pure ?_)
    simp [ConsState.map]

variable {gF : ProxOp F} {gF' : ProxOp F'} {A : LinOp E F} {A' : LinOp E' F'}

/-- C109 for `LinearizedADMM`. -/
theorem C109_linearized_admm (hf : PartOf π f f') (hg : PartOf ρ gF gF') (hA : PartLin π ρ A A') (x0 : Option E) (z0 : Option F) (τ μ : ℝ) (n : ℕ) (s : SplitOpState E F)
    (h : LinearizedADMM f gF A x0 z0 τ μ n = .ok s) : LinearizedADMM f' gF' A' (x0.map π) (z0.map ρ) τ μ n = .ok (s.map π ρ) := by
  have key := fun x z Ax => PyLe.forRange (φ := SplitOpState.map π ρ) (body := LinearizedADMM.body f gF A τ μ) (body' := LinearizedADMM.body f' gF' A' τ μ) (fun i s => ?_) n 0
    ⟨x, z, 0, Ax, []⟩
  · simp only [SplitOpState.map, List.map_nil, map_zero] at key
    refine ((x0z0InitOp_le hA x0 z0).bind fun p => ?_) s h
    cases z0 <;> simp [← hA.matvec] <;> exact key _ _ _
  · simp only [LinearizedADMM.body, SplitOpState.map]
    refine PyLe.ite PyLe.error ?_
    simp only [← map_sub, ← map_add, ← hA.rmatvec, ← map_smul]
    refine (hf.proxLe _ _).bind fun x => ?_
    simp only [← hA.matvec, ← map_add]
    refine (hg.proxLe _ _).bind fun z => PyLe.pure ?_
    simp [SplitOpState.map]

/-- C109 for `ADMML2`; the inner solver is a parameter and has to keep the parts apart as well. -/
theorem C109_admml2 {inv : E → F → ℝ → E} {inv' : E' → F' → ℝ → E'} (hinv : ∀ x d e, inv' (π x) (ρ d) e = π (inv x d e)) (hg : PartOf ρ gF gF') (hA : PartLin π ρ A A')
    (x0 : Option E) (z0 : Option F) (τ : ℝ) (n : ℕ) (gfirst : Bool) (s : SplitOpState E F) (h : ADMML2 inv gF A x0 z0 τ n gfirst = .ok s) :
    ADMML2 inv' gF' A' (x0.map π) (z0.map ρ) τ n gfirst = .ok (s.map π ρ) := by
  have key := fun x z => PyLe.forRange (φ := SplitOpState.map π ρ) (body := ADMML2.body inv gF A τ gfirst) (body' := ADMML2.body inv' gF' A' τ gfirst) (fun i s => ?_) n 0
    ⟨x, z, 0, 0, []⟩
  · simp only [SplitOpState.map, List.map_nil, map_zero] at key
    refine ((x0z0InitOp_le hA x0 z0).bind fun p => ?_) s h
    exact PyLe.ite PyLe.error (PyLe.ite PyLe.error (key _ _))
  · simp only [ADMML2.body, SplitOpState.map]
    refine PyLe.ite ?_ ?_
    · simp only [← map_add, ← hA.matvec]
      refine (hg.proxLe _ _).bind fun z => PyLe.pure ?_
      simp [SplitOpState.map, ← map_sub, hinv]
      rw [map_sub, map_add]
    · simp only [← map_sub, ← map_add, hinv, ← hA.matvec]
      refine (hg.proxLe _ _).bind fun z => PyLe.pure ?_
      simp [SplitOpState.map]

/-- C109 for `TwIST` with given `alpha` and `beta`; the cost history, which sums over all parts, is not kept. -/
theorem C109_twist_partial (hg : PartOf π g g') (hA : PartLin π ρ A A') (b : F) (x0 : E) (αβ : ℝ × ℝ) (eigs eigs' : ℝ × ℝ) (n : ℕ) (s : TwistState E)
    (h : TwIST g A b x0 (some αβ) eigs n false = .ok s) : TwIST g' A' (ρ b) (π x0) (some αβ) eigs' n false = .ok (s.map π) := by
  have gr : ∀ x, PyLe π (twistGrad A b x) (twistGrad A' (ρ b) (π x)) := fun x => by
    simp only [twistGrad, L2.grad]
    refine PyLe.ok ?_
    simp only [← hA.matvec, ← map_sub, ← hA.rmatvec, map_smul]
  have key := fun x => PyLe.forRange (φ := TwistState.map π) (body := TwIST.body g A b αβ.1 αβ.2 false) (body' := TwIST.body g' A' (ρ b) αβ.1 αβ.2 false) (fun i s => ?_) n 0
    ⟨x, x0, [], []⟩
  · simp only [TwistState.map, List.map_nil] at key
    revert s
    change PyLe (TwistState.map π) (twistGrad A b x0 >>= fun g0 => g.prox (x0 - g0) 1 >>= fun x => forRange (TwIST.body g A b αβ.1 αβ.2 false) n 0 ⟨x, x0, [], []⟩)
      (twistGrad A' (ρ b) (π x0) >>= fun g0 => g'.prox (π x0 - g0) 1 >>= fun x => forRange (TwIST.body g' A' (ρ b) αβ.1 αβ.2 false) n 0 ⟨x, π x0, [], []⟩)
    refine (gr x0).bind fun v => ?_
    rw [← map_sub]
    exact (hg.proxLe _ _).bind fun x => key x
  · simp only [TwIST.body, TwistState.map]
    refine (gr _).bind fun v => ?_
    rw [← map_sub]
    refine (hg.proxLe _ _).bind fun p => PyLe.pure ?_
    simp [TwistState.map]

/-- C109 for `PrimalDual`. -/
theorem C109_primaldual (hf : PartOf π f f') (hg : PartOf ρ gF gF') (hA : PartLin π ρ A A') (x0 : E) (y0 : Option F) (z : Option E) (tau mu : StepSpec) (θ : ℝ) (n : ℕ)
    (gfirst : Bool) (s : PDState E F) (h : PrimalDual f gF A x0 y0 z tau mu θ n gfirst = .ok s) :
    PrimalDual f' gF' A' (π x0) (y0.map ρ) (z.map π) tau mu θ n gfirst = .ok (s.map π ρ) := by
  have e0 : ∀ y, pdATy A' (z.map π) (ρ y) = π (pdATy A z y) := fun y => by cases z <;> simp [pdATy, hA.rmatvec]
  have key := PyLe.forRange (φ := PDState.map π ρ) (body := PrimalDual.body f gF A z tau mu θ gfirst) (body' := PrimalDual.body f' gF' A' (z.map π) tau mu θ gfirst) (fun i s => ?_) n 0
    ⟨x0, y0.getD 0, x0, []⟩
  · have e1 : (y0.map ρ).getD 0 = ρ (y0.getD 0) := by cases y0 <;> simp
    simp only [PDState.map, List.map_nil, ← e1] at key
    exact key s h
  · simp only [PrimalDual.body, PDState.map]
    refine (PyLe.self _).bind fun t => (PyLe.self _).bind fun m => PyLe.ite ?_ ?_
    · simp only [id, ← hA.matvec, ← map_smul, ← map_add]
      refine (hg.dualLe _ _).bind fun y => ?_
      rw [e0, ← map_smul, ← map_sub]
      refine (hf.proxLe _ _).bind fun x => PyLe.pure ?_
      simp [PDState.map]
    · simp only [id, e0, ← map_smul, ← map_sub]
      refine (hf.proxLe _ _).bind fun x => ?_
      simp only [← map_sub, ← map_smul, ← map_add, ← hA.matvec]
      refine (hg.dualLe _ _).bind fun y => PyLe.pure ?_
      simp [PDState.map]

end Solvers

end Verif
