import Verif.Props.ComplexSolve
import Verif.Model.Anderson

/-!
# C120: `AndersonProximalGradient` on complex arrays without imaginary part

The weights of the method on complex arrays are wrong in general (`C120_anderson_refuted`).  On arrays whose imaginary part is zero the run is the one on the real arrays.
-/

open scoped RealInnerProductSpace

namespace Verif

variable {ι : Type} [Fintype ι]

/-- A real array stored as a complex one. -/
noncomputable def asComplex (x : Vec ι) : CVec ι := cmk fun i => (x i : ℂ)

/-- `f'` on arrays without imaginary part does what `f` does on the real ones. -/
structure RealPartOf (f' : ProxOp (CVec ι)) (f : ProxOp (Vec ι)) : Prop where
  call : ∀ x, f'.call (asComplex x) = f.call x
  prox : ∀ x τ, f'.prox (asComplex x) τ = asComplex <$> f.prox x τ
  grad : ∀ x, f'.grad (asComplex x) = asComplex <$> f.grad x

lemma asComplex_sub (x y : Vec ι) : asComplex x - asComplex y = asComplex (x - y) := by ext i; simp [asComplex]

lemma asComplex_add (x y : Vec ι) : asComplex x + asComplex y = asComplex (x + y) := by ext i; simp [asComplex]

lemma asComplex_smul (t : ℝ) (x : Vec ι) : t • asComplex x = asComplex (t • x) := by ext i; simp [asComplex]

lemma asComplex_csmul (t : ℝ) (x : Vec ι) : (t : ℂ) • asComplex x = asComplex (t • x) := by ext i; simp [asComplex]

lemma asComplex_norm (x : Vec ι) : ‖asComplex x‖ = ‖x‖ := by
  rw [EuclideanSpace.norm_eq, EuclideanSpace.norm_eq]
  simp [asComplex]

lemma combineC_real (G : List (Vec ι)) (α : List ℝ) : combineC (G.map asComplex) (α.map fun a : ℝ => (a : ℂ)) = asComplex (combine G α) := by
  unfold combineC combine
  induction α generalizing G with
  | nil => ext i; simp [asComplex]
  | cons a α ih =>
    cases G with
    | nil => ext i; simp [asComplex]
    | cons g G => simp only [List.map_cons, List.zipWith_cons_cons, List.sum_cons, ih, asComplex_csmul, asComplex_add]

/-- A state of the solver stored in complex arrays. -/
noncomputable def andersonAsComplex (s : AndersonState (Vec ι)) : AndersonState (CVec ι) :=
  ⟨asComplex s.x, asComplex s.y, s.R.map asComplex, s.G.map asComplex, s.pf, s.pfg, s.log.map asComplex⟩

lemma histPush_map {α β : Type} (k : α → β) (n i : ℕ) (a : α) (h : List α) : histPush n i (k a) (h.map k) = (histPush n i a h).map k := by
  unfold histPush
  split_ifs <;> simp [List.map_dropLast]

lemma andersonC_body_real {f' g' : ProxOp (CVec ι)} {f g : ProxOp (Vec ι)} (hf : RealPartOf f' f) (hg : RealPartOf g' g)
    {solve' : List (CVec ι) → Py (List ℂ)} {solve : List (Vec ι) → Py (List ℝ)} (hs : ∀ R, solve' (R.map asComplex) = (fun l => l.map fun a : ℝ => (a : ℂ)) <$> solve R)
    (τ : ℝ) (epsg : StepSpec) (nh : ℕ) (safeguard : Bool) (tol : Option ℝ) (i : ℕ) (s : AndersonState (Vec ι)) :
    AndersonC.body f' g' solve' τ epsg nh safeguard tol i (andersonAsComplex s) = Prod.map andersonAsComplex id <$> Anderson.body f g solve τ epsg nh safeguard tol i s := by
  unfold AndersonC.body Anderson.body
  simp only [andersonAsComplex, hf.grad]
  cases h1 : f.grad s.x with
  | error e => rfl
  | ok gx =>
  simp only [py_map_ok, py_ok_bind, asComplex_smul, asComplex_sub, histPush_map, hs]
  cases h2 : solve (histPush nh i (s.x - τ • gx - s.y) s.R) with
  | error e => rfl
  | ok α =>
  simp only [py_map_ok, py_ok_bind]
  cases h3 : epsg.at i with
  | error e => rfl
  | ok e =>
  simp only [py_ok_bind, combineC_real, hg.prox, asComplex_norm]
  cases h4 : g.prox (combine (histPush nh i (s.x - τ • gx) s.G) α) (e * τ) with
  | error e => rfl
  | ok xt =>
  simp only [py_map_ok, py_ok_bind, hf.call]
  have key : ((if safeguard then do
      let v ← f.call xt
      if v.toReal ≤ s.pf - τ * ‖gx‖ ^ 2 / 2 then pure (asComplex xt, asComplex (combine (histPush nh i (s.x - τ • gx) s.G) α), v.toReal)
      else do
        let xg ← asComplex <$> g.prox (s.x - τ • gx) (e * τ)
        pure (xg, asComplex (s.x - τ • gx), v.toReal)
    else pure (asComplex xt, asComplex (combine (histPush nh i (s.x - τ • gx) s.G) α), s.pf) : Py (CVec ι × CVec ι × ℝ))) =
      (fun p : Vec ι × Vec ι × ℝ => (asComplex p.1, asComplex p.2.1, p.2.2)) <$> (if safeguard then do
      let v ← f.call xt
      if v.toReal ≤ s.pf - τ * ‖gx‖ ^ 2 / 2 then pure (xt, combine (histPush nh i (s.x - τ • gx) s.G) α, v.toReal)
      else do
        let xg ← g.prox (s.x - τ • gx) (e * τ)
        pure (xg, s.x - τ • gx, v.toReal)
    else pure (xt, combine (histPush nh i (s.x - τ • gx) s.G) α, s.pf) : Py (Vec ι × Vec ι × ℝ)) := by
    cases safeguard with
    | false => rfl
    | true =>
      simp only [if_true]
      cases f.call xt with
      | error e => rfl
      | ok v =>
        simp only [py_ok_bind]
        split_ifs
        · rfl
        · cases g.prox (s.x - τ • gx) (e * τ) <;> rfl
  rw [key]
  cases h5 : (if safeguard then do
      let v ← f.call xt
      if v.toReal ≤ s.pf - τ * ‖gx‖ ^ 2 / 2 then pure (xt, combine (histPush nh i (s.x - τ • gx) s.G) α, v.toReal)
      else do
        let xg ← g.prox (s.x - τ • gx) (e * τ)
        pure (xg, s.x - τ • gx, v.toReal)
    else pure (xt, combine (histPush nh i (s.x - τ • gx) s.G) α, s.pf) : Py (Vec ι × Vec ι × ℝ)) with
  | error e => rfl
  | ok p =>
  obtain ⟨x, y, pf⟩ := p
  simp only [py_map_ok, py_ok_bind]
  cases tol with
  | none => simp only [← List.map_singleton, ← List.map_append]; rfl
  | some tol =>
    simp only [hf.call, hg.call]
    cases f.call x with
    | error e => rfl
    | ok v =>
      simp only [py_ok_bind]
      cases g.call x with
      | error e => rfl
      | ok w => simp only [py_ok_bind, ← List.map_singleton, ← List.map_append]; rfl

/-- C120: `AndersonProximalGradient` on complex arrays without imaginary part is the run on the real arrays: same iterates, objective values, stop and exceptions, with or without safeguard. -/
theorem C120_anderson_real {f' g' : ProxOp (CVec ι)} {f g : ProxOp (Vec ι)} (hf : RealPartOf f' f) (hg : RealPartOf g' g)
    {solve' : List (CVec ι) → Py (List ℂ)} {solve : List (Vec ι) → Py (List ℝ)} (hs : ∀ R, solve' (R.map asComplex) = (fun l => l.map fun a : ℝ => (a : ℂ)) <$> solve R)
    (x0 : Vec ι) (τ : ℝ) (epsg : StepSpec) (niter nh : ℕ) (safeguard : Bool) (tol : Option ℝ) :
    AndersonProximalGradientC f' g' solve' (asComplex x0) τ epsg niter nh safeguard tol =
      andersonAsComplex <$> AndersonProximalGradient f g solve x0 τ epsg niter nh safeguard tol := by
  unfold AndersonProximalGradientC AndersonProximalGradient
  cases epsg.printCheck niter with
  | error e => rfl
  | ok u =>
  simp only [py_ok_bind]
  cases epsg.at 0 with
  | error e => rfl
  | ok e =>
  simp only [py_ok_bind]
  have hinit : Anderson.init f' g' (asComplex x0) τ e = andersonAsComplex <$> Anderson.init f g x0 τ e := by
    unfold Anderson.init
    simp only [hf.grad]
    cases f.grad x0 with
    | error e => rfl
    | ok gx =>
    simp only [py_map_ok, py_ok_bind, asComplex_smul, asComplex_sub, hg.prox]
    cases g.prox (x0 - τ • gx) (e * τ) with
    | error e => rfl
    | ok x =>
    simp only [py_map_ok, py_ok_bind, hf.call]
    cases f.call x <;> rfl
  rw [hinit]
  cases Anderson.init f g x0 τ e with
  | error e => rfl
  | ok s => exact forRange_commute (andersonC_body_real hf hg hs τ epsg nh safeguard tol) niter 0 s

/-- C120: the weights: those of real residuals stored as complex arrays are the real weights, if the pseudoinverse of a matrix without imaginary part is that of the real matrix. -/
theorem C120_anderson_weights_real {pinv' : ∀ n, Matrix (Fin n) (Fin n) ℂ → Matrix (Fin n) (Fin n) ℂ} {pinv : ∀ n, Matrix (Fin n) (Fin n) ℝ → Matrix (Fin n) (Fin n) ℝ}
    (hp : ∀ n (M : Matrix (Fin n) (Fin n) ℝ), pinv' n (M.map fun a => (a : ℂ)) = (pinv n M).map fun a => (a : ℂ)) (epsr : ℝ) (R : List (Vec ι)) :
    andersonAlphaC pinv' epsr (R.map asComplex) = (fun l => l.map fun a : ℝ => (a : ℂ)) <$> andersonAlpha pinv epsr R := by
  have gen : ∀ (n m : ℕ) (h : n = m) (r' : Fin n → CVec ι) (r : Fin m → Vec ι), (∀ i, r' i = asComplex (r (Fin.cast h i))) →
      (let w : Fin n → ℂ := (pinv' n (Matrix.of fun i j => npDot (r' i) (r' j) + (epsr * ∑ k, ‖r' k‖ ^ 2 : ℝ))).mulVec fun _ => 1
       (if ∑ i, w i = 0 then .error .nanResult else .ok (List.ofFn fun i => w i / ∑ j, w j) : Py (List ℂ))) =
      (fun l => l.map fun a : ℝ => (a : ℂ)) <$>
      (let w : Fin m → ℝ := (pinv m (Matrix.of fun i j => ⟪r i, r j⟫ + epsr * ∑ k, ‖r k‖ ^ 2)).mulVec fun _ => 1
       (if ∑ i, w i = 0 then .error .nanResult else .ok (List.ofFn fun i => w i / ∑ j, w j) : Py (List ℝ))) := by
    rintro n _ rfl r' r hr
    simp only [Fin.cast_eq_self] at hr
    have hM : (Matrix.of fun i j => npDot (r' i) (r' j) + (epsr * ∑ k, ‖r' k‖ ^ 2 : ℝ)) =
        (Matrix.of fun i j => ⟪r i, r j⟫ + epsr * ∑ k, ‖r k‖ ^ 2).map fun a : ℝ => (a : ℂ) := by
      ext i j
      simp only [Matrix.of_apply, Matrix.map_apply, hr, asComplex_norm, Complex.ofReal_add]
      congr 1
      simp [npDot, asComplex, PiLp.inner_apply, mul_comm]
    simp only [hM, hp]
    have hw : ((pinv n (Matrix.of fun i j => ⟪r i, r j⟫ + epsr * ∑ k, ‖r k‖ ^ 2)).map fun a : ℝ => (a : ℂ)).mulVec (fun _ => (1 : ℂ)) =
        fun i => (((pinv n (Matrix.of fun i j => ⟪r i, r j⟫ + epsr * ∑ k, ‖r k‖ ^ 2)).mulVec (fun _ => (1 : ℝ)) i : ℝ) : ℂ) := by
      funext i
      simp [Matrix.mulVec, dotProduct]
    rw [hw]
    generalize (pinv n (Matrix.of fun i j => ⟪r i, r j⟫ + epsr * ∑ k, ‖r k‖ ^ 2)).mulVec (fun _ => (1 : ℝ)) = w
    have h0 : (∑ i, ((w i : ℝ) : ℂ)) = ((∑ i, w i : ℝ) : ℂ) := by push_cast; rfl
    rw [h0]
    by_cases hz : ∑ i, w i = 0
    · rw [if_pos (by rw [hz]; rfl), if_pos hz]; rfl
    · rw [if_neg (by exact_mod_cast hz), if_neg hz, py_map_ok]
      congr 1
      rw [List.map_ofFn]
      congr 1
      funext i
      simp
  unfold andersonAlphaC andersonAlpha
  by_cases hR : R = []
  · subst hR; rfl
  · rw [if_neg (by simpa using hR), if_neg hR]
    exact gen (R.map asComplex).length R.length (by simp) (R.map asComplex).get R.get fun i => by simp

/-- C120: whatever the pseudoinverse, the complex weights that are returned sum to one. -/
theorem C120_anderson_weights_sum (pinv : ∀ n, Matrix (Fin n) (Fin n) ℂ → Matrix (Fin n) (Fin n) ℂ) (epsr : ℝ) (R : List (CVec ι)) (α : List ℂ)
    (h : andersonAlphaC pinv epsr R = .ok α) : α.sum = 1 ∧ α.length = R.length := by
  unfold andersonAlphaC at h
  split_ifs at h with h1
  simp only at h
  split_ifs at h with h2
  rw [← Except.ok.inj h, List.sum_ofFn, ← Finset.sum_div, div_self h2, List.length_ofFn]
  exact ⟨rfl, rfl⟩

lemma cSoft_real (a : ℝ) {t : ℝ} (ht : 0 ≤ t) : cSoft (a : ℂ) t = (softScalar a t : ℝ) := by
  unfold cSoft softScalar cphase npsign
  rcases lt_trichotomy a 0 with h | h | h
  · simp [h, h.not_gt, abs_of_neg h, Complex.arg_ofReal_of_neg h, mul_comm Complex.I]
  · simp [h, ht]
  · simp [h, abs_of_pos h, Complex.arg_ofReal_of_nonneg h.le]

/-- Operators that meet the hypothesis: `L2` with real data and `L1`. -/
example {C F : Type} [NormedAddCommGroup F] [InnerProductSpace ℝ F] (ext : L2Ext (Vec ι) F C) (st : L2State (Vec ι) C) (b : Vec ι) :
    RealPartOf (L2Cx 1 1 (some (asComplex b)) none true) (L2.obj ext ⟨.bOnly b, none, 1, 1, true, .const 10, true, .legacy, .default⟩ st) ∧ RealPartOf (L1Cx (ι := ι) 1 none) (L1 1 none) := by
  have hpx : ∀ (x : Vec ι) (τ : ℝ), (L1Cx (ι := ι) 1 none).prox (asComplex x) τ = asComplex <$> (L1 1 none).prox x τ := fun x τ => by
    simp only [ProxOp.prox, L1Cx, L1, checkTau]
    split_ifs with h
    · rfl
    · push Not at h
      simp only [py_map_ok]
      congr 1; ext i
      show cSoft (x i : ℂ) (τ * 1) = ((softScalar (x i) (τ * 1) : ℝ) : ℂ)
      exact cSoft_real _ (by positivity)
  refine ⟨⟨fun x => ?_, fun x τ => ?_, fun x => ?_⟩, ⟨fun x => ?_, hpx, fun x => ?_⟩⟩
  · simp [L2Cx, L2.obj, L2.call, asComplex_sub, asComplex_norm]
  · simp only [ProxOp.prox, L2Cx, L2.obj, L2.prox, L2.proxBody, checkTau, asComplex_smul, asComplex_add]
    split_ifs with h h'
    · rfl
    · exact absurd h' (by push Not at h; positivity)
    · simp only [L2.subQ, npDivBy, if_neg h', py_map_ok]
  · simp [ProxOp.grad, L2Cx, L2.obj, L2.grad, asComplex_sub]
  · simp [L1Cx, L1, asComplex]
  · have e : ∀ x, (L1Cx (ι := ι) 1 none).grad x = (do let p ← (L1Cx (ι := ι) 1 none).prox x 1; pure (x - p)) := fun x => by simp [ProxOp.grad, L1Cx]
    have e' : ∀ x, (L1 (ι := ι) 1 none).grad x = (do let p ← (L1 (ι := ι) 1 none).prox x 1; pure (x - p)) := fun x => by simp [ProxOp.grad, L1]
    rw [e, e', hpx]
    cases (L1 (ι := ι) 1 none).prox x 1 with
    | error e => rfl
    | ok p => exact congrArg Except.ok (asComplex_sub x p)

end Verif
