import Verif.Model.Attributes
import Verif.Props.L2
import Verif.Props.Closed

/-!
# C126: changing the parameters of an operator after it was built

After an assignment to an attribute, or a write into an array that was given to the constructor, one expects the object to behave as one built from the present values.
-/

open scoped RealInnerProductSpace

namespace Verif

variable {ι κ : Type} [Fintype ι] [Fintype κ]
variable {E F C : Type} [NormedAddCommGroup E] [InnerProductSpace ℝ E] [NormedAddCommGroup F] [InnerProductSpace ℝ F]

/-! ## Specification: present values -/

/-- The value an event gives to the parameter. -/
def ParamEvent.val {P : Type} : ParamEvent P → P
  | .assign v => v
  | .write v => v

/-- Whether it is a write into the array. -/
def ParamEvent.isWrite {P : Type} : ParamEvent P → Bool
  | .assign _ => false
  | .write _ => true

/-- The present value: the last one given, or that of the constructor. -/
def lastValue {P : Type} (p : P) (evs : List (ParamEvent P)) : P := ((evs.map ParamEvent.val).getLast?).getD p

/-- The value at the time of the first assignment. -/
def valueBeforeAssign {P : Type} (p : P) (evs : List (ParamEvent P)) : P := lastValue p (evs.takeWhile ParamEvent.isWrite)

lemma lastValue_cons {P : Type} (p : P) (e : ParamEvent P) (evs : List (ParamEvent P)) : lastValue p (e :: evs) = lastValue e.val evs := by
  cases evs with
  | nil => rfl
  | cons a l => simp [lastValue, List.getLast?_cons]

lemma param_unshared {P : Type} (v w : P) (evs : List (ParamEvent P)) :
    evs.foldl ParamObj.step ⟨v, w, false⟩ = ⟨lastValue v evs, w, false⟩ := by
  induction evs generalizing v with
  | nil => rfl
  | cons e evs ih => cases e <;> simp [List.foldl_cons, ParamObj.step, ih, lastValue_cons, ParamEvent.val]

lemma param_after {P : Type} (p : P) (evs : List (ParamEvent P)) :
    ParamObj.after p evs = ⟨lastValue p evs, valueBeforeAssign p evs, evs.all ParamEvent.isWrite⟩ := by
  unfold ParamObj.after ParamObj.init
  induction evs generalizing p with
  | nil => rfl
  | cons e evs ih =>
    cases e with
    | assign v =>
      simp only [List.foldl_cons, ParamObj.step, param_unshared, lastValue_cons, ParamEvent.val, valueBeforeAssign]
      simp [ParamEvent.isWrite, lastValue]
    | write v =>
      simp only [List.foldl_cons, ParamObj.step, if_true, ih, lastValue_cons, ParamEvent.val, valueBeforeAssign]
      rw [List.takeWhile_cons_of_pos (by rfl), lastValue_cons]
      simp [ParamEvent.isWrite, ParamEvent.val]

lemma takeWhile_writes {P : Type} (evs : List (ParamEvent P)) (h : ∀ e ∈ evs, e.isWrite = true) : evs.takeWhile ParamEvent.isWrite = evs := by
  induction evs with
  | nil => rfl
  | cons e l ih => rw [List.takeWhile_cons_of_pos (h e (by simp)), ih fun e he => h e (by simp [he])]

/-! ## Indicators -/

/-- C126: writing into the arrays given to `Box`, `EuclideanBall` and `AffineSet`, any number of times, gives the operator of the present arrays. -/
theorem C126_indicator_writes (l u : ι → Bound) (evl evu : List (ParamEvent (ι → Bound))) (c : E) (evc : List (ParamEvent E)) (r : ℝ)
    (cg : (Vec κ → Vec κ) → Vec κ → Vec κ) (Op : LinOp E (Vec κ)) (b : Vec κ) (evb : List (ParamEvent (Vec κ)))
    (hl : ∀ e ∈ evl, e.isWrite = true) (hu : ∀ e ∈ evu, e.isWrite = true) (hc : ∀ e ∈ evc, e.isWrite = true) (hb : ∀ e ∈ evb, e.isWrite = true) :
    BoxObj (.after l evl) (.after u evu) = Box (lastValue l evl) (lastValue u evu) ∧
    EuclideanBallObj (.after c evc) (.after r []) = EuclideanBall (lastValue c evc) r ∧
    AffineSetObj cg Op (.after b evb) = AffineSet cg Op (lastValue b evb) := by
  refine ⟨?_, ?_, ?_⟩ <;> simp only [BoxObj, EuclideanBallObj, AffineSetObj, param_after, valueBeforeAssign]
  · rw [takeWhile_writes _ hl, takeWhile_writes _ hu]
  · rw [takeWhile_writes _ hc]
    rfl
  · rw [takeWhile_writes _ hb]

/-- C126: after any events the membership test uses the present parameters, while the projection uses those at the time of the first assignment. -/
theorem C126_indicator_assigned (l u : ι → Bound) (evl evu : List (ParamEvent (ι → Bound))) (c : E) (evc : List (ParamEvent E)) (r : ℝ) (evr : List (ParamEvent ℝ))
    (cg : (Vec κ → Vec κ) → Vec κ → Vec κ) (Op : LinOp E (Vec κ)) (b : Vec κ) (evb : List (ParamEvent (Vec κ)))
    (bisect : (ℝ → ℝ) → ℝ → ℝ → ℝ) (fuel : ℕ) (tol : ℝ) (cf : Bool) (x : Vec ι) (y : E) (τ : ℝ) :
    ((BoxObj (.after l evl) (.after u evu)).call x = (Box (lastValue l evl) (lastValue u evu)).call x ∧
      (BoxObj (.after l evl) (.after u evu)).prox x τ = (Box (valueBeforeAssign l evl) (valueBeforeAssign u evu)).prox x τ) ∧
    ((EuclideanBallObj (.after c evc) (.after r evr)).call y = (EuclideanBall (lastValue c evc) (lastValue r evr)).call y ∧
      (EuclideanBallObj (.after c evc) (.after r evr)).prox y τ = (EuclideanBall (valueBeforeAssign c evc) (valueBeforeAssign r evr)).prox y τ) ∧
    ((AffineSetObj cg Op (.after b evb)).call y = (AffineSet cg Op (lastValue b evb)).call y ∧
      (AffineSetObj cg Op (.after b evb)).prox y τ = (AffineSet cg Op (valueBeforeAssign b evb)).prox y τ) ∧
    ((L1BallObj bisect fuel tol (.after r evr) : ProxOp (Vec ι)).call x = (L1Ball bisect fuel (lastValue r evr) tol).call x ∧
      (L1BallObj bisect fuel tol (.after r evr) : ProxOp (Vec ι)).prox x τ = (L1Ball bisect fuel (valueBeforeAssign r evr) tol).prox x τ) ∧
    (SimplexObj bisect fuel tol cf (.after r evr) : ProxOp (Vec ι)).call x = (Simplex bisect fuel (lastValue r evr) tol cf).call x ∧
      (SimplexObj bisect fuel tol cf (.after r evr) : ProxOp (Vec ι)).prox x τ = (Simplex bisect fuel (valueBeforeAssign r evr) tol cf).prox x τ := by
  simp only [BoxObj, EuclideanBallObj, AffineSetObj, L1BallObj, SimplexObj, param_after]
  refine ⟨⟨trivial, ?_⟩, ⟨trivial, ?_⟩, ⟨trivial, ?_⟩, ⟨trivial, ?_⟩, trivial, ?_⟩ <;> rfl

/-- C126: `Simplex` with `engine="numba"` and `L0Ball` follow every assignment of the radius, and the latter does so whatever calls came in between. -/
theorem C126_radius_follows (fuel : ℕ) (tol : ℝ) (maxiter : ℕ) (ftol xtol : ℝ) (cf : Bool) (r : ℝ) (evr : List (ParamEvent ℝ)) (argsort : Vec ι → List ι) (k k' : ℕ)
    (evs evs' : List (L0Event ι)) (hevs : ∀ e ∈ evs', ∃ x τ, e = .prox x τ) (x : Vec ι) (τ : ℝ) :
    (SimplexNumbaObj fuel tol maxiter ftol xtol cf (.after r evr) : ProxOp (Vec ι)) = SimplexNumba fuel (lastValue r evr) tol maxiter ftol xtol cf ∧
    (((evs ++ [L0Event.radius k'] ++ evs').foldl (L0BallObj.step argsort) (.init k)).prox argsort x τ).2 = (L0Ball argsort k').prox x τ := by
  refine ⟨by simp only [SimplexNumbaObj, param_after], ?_⟩
  rw [List.foldl_append, List.foldl_append]
  have key : ∀ (evs' : List (L0Event ι)) (o : L0BallObj), (∀ e ∈ evs', ∃ x τ, e = .prox x τ) → (evs'.foldl (L0BallObj.step argsort) o).radius = o.radius := by
    intro evs'
    induction evs' with
    | nil => intro o _; rfl
    | cons e l ih =>
      intro o h
      obtain ⟨y, s, rfl⟩ := h e (by simp)
      rw [List.foldl_cons, ih _ fun e he => h e (by simp [he])]
      simp only [L0BallObj.step, L0BallObj.prox]
      split_ifs <;> rfl
  have h1 := key evs' ([L0Event.radius k'].foldl (L0BallObj.step argsort) (evs.foldl (L0BallObj.step argsort) (.init k))) hevs
  simp only [L0BallObj.prox, h1]
  simp only [List.foldl_cons, List.foldl_nil, L0BallObj.step, L0Ball, ProxOp.prox, checkTau]
  split_ifs <;> rfl

/-- C126: the claim fails for `EuclideanBall`.  After the radius `r0` was assigned other values, the last one `r1`, `prox` still projects onto the ball of radius `r0`,
and its result passes the membership test only when the point was in the new ball or the new ball is larger. -/
theorem C126_ball_refuted (c : E) (r0 r1 : ℝ) (h0 : 0 < r0) (rs : List ℝ) (x : E) (τ : ℝ) (hτ : 0 < τ) :
    ∃ p, (EuclideanBallObj (.after c []) (.after r0 (rs.map .assign ++ [.assign r1]))).prox x τ = .ok p ∧ IsUniqueProj {y : E | ‖y - c‖ ≤ r0} x p ∧
      ((EuclideanBallObj (.after c []) (.after r0 (rs.map .assign ++ [.assign r1]))).call p = .ok (.bool true) ↔ ‖x - c‖ ≤ r1 ∨ r0 ≤ r1) := by
  have hlast : lastValue r0 (rs.map .assign ++ [.assign r1]) = r1 := by simp [lastValue, ParamEvent.val]
  have hbef : valueBeforeAssign r0 (rs.map .assign ++ [.assign r1]) = r0 := by
    cases rs <;> simp [valueBeforeAssign, ParamEvent.isWrite, lastValue]
  have hop : EuclideanBallObj (.after c []) (.after r0 (rs.map .assign ++ [.assign r1])) = { EuclideanBall c r1 with prox? := (EuclideanBall c r0).prox? } := by
    simp only [EuclideanBallObj, param_after, hlast, hbef]; rfl
  rw [hop]
  obtain ⟨p, hp, hproj⟩ := C23_ball_prox c r0 h0 x τ hτ
  have hp' : p = c + (r0 / max ‖x - c‖ r0) • (x - c) := by
    have hm : max ‖x - c‖ r0 ≠ 0 := ((lt_of_lt_of_le h0 (le_max_right _ _)).ne')
    have : (EuclideanBall c r0).prox x τ = .ok (c + (r0 / max ‖x - c‖ r0) • (x - c)) := by
      simp only [ProxOp.prox, EuclideanBall, checkTau, if_neg (not_le.2 hτ), euclideanBallProj, if_neg hm]
    rw [this] at hp
    exact (Except.ok.inj hp).symm
  have hn : ‖p - c‖ = min ‖x - c‖ r0 := by
    rw [hp', add_sub_cancel_left, norm_smul, Real.norm_eq_abs]
    rcases le_total ‖x - c‖ r0 with h | h
    · rw [max_eq_right h, min_eq_left h, div_self h0.ne', abs_one, one_mul]
    · have hx : 0 < ‖x - c‖ := lt_of_lt_of_le h0 h
      rw [max_eq_left h, min_eq_right h, abs_of_nonneg (by positivity)]; field_simp
  refine ⟨p, hp, hproj, ?_⟩
  have hcall : ({ EuclideanBall c r1 with prox? := (EuclideanBall c r0).prox? } : ProxOp E).call p = .ok (.bool true) ↔ ‖p - c‖ ≤ r1 := by
    simp [EuclideanBall]
  rw [hcall, hn, min_le_iff]

/-- C126: the claim fails for `HalfSpace` when the normal `w0` is overwritten in place (last value `w1`): outside the half space of `w1` the result is the projection exactly when the two normals have
the same length; a shorter one gives a point that violates the constraint and a longer one a point that overshoots. -/
theorem C126_halfspace_refuted (w0 w1 : E) (hw0 : w0 ≠ 0) (hw1 : w1 ≠ 0) (ws : List E) (b : ℝ) (x : E) (hx : b < ⟪w1, x⟫) (τ : ℝ) (hτ : 0 < τ) :
    ∃ p, (((ws.map fun w => Sum.inl (ParamEvent.write w)) ++ [Sum.inl (ParamEvent.write w1)]).foldl HalfSpaceObj.step (.init w0 b)).prox x τ = .ok p ∧
      (IsProj {y : E | ⟪w1, y⟫ ≤ b} x p ↔ ‖w1‖ = ‖w0‖) ∧
      ⟪w1, p⟫ - b = (⟪w1, x⟫ - b) * (1 - ‖w1‖ ^ 2 / ‖w0‖ ^ 2) ∧
      ((((ws.map fun w => Sum.inl (ParamEvent.write w)) ++ [Sum.inl (ParamEvent.write w1)]).foldl HalfSpaceObj.step (.init w0 b)).call p = .ok (.bool true) ↔ ‖w0‖ ≤ ‖w1‖) := by
  have hst : ∀ (ws : List E) (w : E) (n : ℝ), ((ws.map fun w => Sum.inl (ParamEvent.write w)) ++ [Sum.inl (ParamEvent.write w1)]).foldl HalfSpaceObj.step ⟨⟨w, w, true⟩, .init b, n⟩ =
      ⟨⟨w1, w1, true⟩, .init b, n⟩ := by
    intro ws
    induction ws with
    | nil => intro w n; rfl
    | cons v l ih => intro w n; simpa [HalfSpaceObj.step, ParamObj.step] using ih v n
  have hst' := hst ws w0 ⟪w0, w0⟫
  have e0 : HalfSpaceObj.init w0 b = ⟨⟨w0, w0, true⟩, .init b, ⟪w0, w0⟫⟩ := rfl
  rw [e0, hst']
  have n0 : 0 < ‖w0‖ := norm_pos_iff.2 hw0
  have n1 : 0 < ‖w1‖ := norm_pos_iff.2 hw1
  have hgap : 0 < ⟪w1, x⟫ - b := by linarith
  set t : ℝ := (⟪w1, x⟫ - b) / ⟪w0, w0⟫ with ht
  have hpr : (⟨⟨w1, w1, true⟩, .init b, ⟪w0, w0⟫⟩ : HalfSpaceObj E).prox x τ = .ok (x - t • w1) := by
    have h2 : ¬ ⟪w1, x⟫ ≤ b := not_le.2 hx
    have h3 : ⟪w0, w0⟫ ≠ 0 := by rw [real_inner_self_eq_norm_sq]; positivity
    simp only [HalfSpaceObj.prox, checkTau, if_neg (not_le.2 hτ), ParamObj.init, if_neg h2, if_neg h3, ht]
  have hval : ⟪w1, x - t • w1⟫ - b = (⟪w1, x⟫ - b) * (1 - ‖w1‖ ^ 2 / ‖w0‖ ^ 2) := by
    rw [inner_sub_right, real_inner_smul_right, real_inner_self_eq_norm_sq, ht, real_inner_self_eq_norm_sq]; ring
  refine ⟨_, hpr, ⟨fun h => ?_, fun h => ?_⟩, hval, ?_⟩
  · -- the projection is unique and given by the formula with the right norm
    obtain ⟨p, hp, hu, -⟩ := C22_halfspace_prox w1 hw1 b x 1 one_pos
    have hp' : p = x - ((⟪w1, x⟫ - b) / ⟪w1, w1⟫) • w1 := by
      have h2 : ¬ ⟪w1, x⟫ ≤ b := not_le.2 hx
      have h3 : ⟪w1, w1⟫ ≠ 0 := by rw [real_inner_self_eq_norm_sq]; positivity
      simp only [ProxOp.prox, HalfSpace, checkTau, halfSpaceProj, if_neg h2, if_neg h3, if_neg (not_le.2 (one_pos (α := ℝ)))] at hp
      exact (Except.ok.inj hp).symm
    have h4 : x - t • w1 = p := hu.2 _ h
    rw [hp', sub_right_inj] at h4
    have h5 : t = (⟪w1, x⟫ - b) / ⟪w1, w1⟫ := by
      by_contra hne
      have : (t - (⟪w1, x⟫ - b) / ⟪w1, w1⟫) • w1 = 0 := by rw [sub_smul, h4, sub_self]
      rcases smul_eq_zero.1 this with h | h
      · exact hne (sub_eq_zero.1 h)
      · exact hw1 h
    rw [ht, real_inner_self_eq_norm_sq, real_inner_self_eq_norm_sq, div_eq_div_iff (by positivity) (by positivity)] at h5
    have h6 : ‖w1‖ ^ 2 = ‖w0‖ ^ 2 := mul_left_cancel₀ hgap.ne' h5
    exact (pow_left_inj₀ n1.le n0.le two_ne_zero).1 h6
  · obtain ⟨p, hp, hu, -⟩ := C22_halfspace_prox w1 hw1 b x 1 one_pos
    have h2 : ¬ ⟪w1, x⟫ ≤ b := not_le.2 hx
    have h3 : ⟪w1, w1⟫ ≠ 0 := by rw [real_inner_self_eq_norm_sq]; positivity
    simp only [ProxOp.prox, HalfSpace, checkTau, halfSpaceProj, if_neg h2, if_neg h3, if_neg (not_le.2 (one_pos (α := ℝ)))] at hp
    have h4 : x - t • w1 = p := by
      rw [← Except.ok.inj hp, ht, real_inner_self_eq_norm_sq w0, real_inner_self_eq_norm_sq w1, h]
    rw [h4]; exact hu.1
  · have hc : (⟨⟨w1, w1, true⟩, .init b, ⟪w0, w0⟫⟩ : HalfSpaceObj E).call (x - t • w1) = .ok (.bool true) ↔ ⟪w1, x - t • w1⟫ ≤ b := by
      simp only [HalfSpaceObj.call, ParamObj.init, Except.ok.injEq, CallVal.bool.injEq]
      exact @decide_eq_true_iff _ (Classical.propDecidable _)
    rw [hc, ← sub_nonpos, hval, mul_nonpos_iff_pos_imp_nonpos]
    constructor
    · intro h
      have h1 : 1 ≤ ‖w1‖ ^ 2 / ‖w0‖ ^ 2 := by linarith [h.1 hgap]
      rw [le_div_iff₀ (by positivity), one_mul] at h1
      exact (pow_le_pow_iff_left₀ n0.le n1.le two_ne_zero).1 h1
    · intro h
      have h1 : 1 ≤ ‖w1‖ ^ 2 / ‖w0‖ ^ 2 := by
        rw [le_div_iff₀ (by positivity), one_mul]
        exact (pow_le_pow_iff_left₀ n0.le n1.le two_ne_zero).2 h
      exact ⟨fun _ => by linarith, fun h' => by linarith⟩

omit [NormedAddCommGroup E] [InnerProductSpace ℝ E] in
lemma halfspace_after (o : HalfSpaceObj E) (evs : List (ParamEvent E ⊕ ℝ)) :
    evs.foldl HalfSpaceObj.step o = ⟨(evs.filterMap Sum.getLeft?).foldl ParamObj.step o.w, ((evs.filterMap Sum.getRight?).map ParamEvent.assign).foldl ParamObj.step o.b, o.wNormSq⟩ := by
  induction evs generalizing o with
  | nil => rfl
  | cons e l ih => cases e <;> (rw [List.foldl_cons, ih]; rfl)

/-- C126: `HalfSpace` after any events: the membership test uses the present `w` and `b`; the projection uses the `b` of the constructor and, if `w` was not overwritten before it was assigned, its `w`. -/
theorem C126_halfspace_assigned (w : E) (b : ℝ) (evs : List (ParamEvent E ⊕ ℝ)) (x : E) (τ : ℝ) :
    (evs.foldl HalfSpaceObj.step (.init w b)).call x =
      (HalfSpace (lastValue w (evs.filterMap Sum.getLeft?)) (((evs.filterMap Sum.getRight?).getLast?).getD b)).call x ∧
    (valueBeforeAssign w (evs.filterMap Sum.getLeft?) = w → (evs.foldl HalfSpaceObj.step (.init w b)).prox x τ = (HalfSpace w b).prox x τ) := by
  rw [halfspace_after]
  have hw := param_after w (evs.filterMap Sum.getLeft?)
  have hb := param_after b ((evs.filterMap Sum.getRight?).map ParamEvent.assign)
  unfold ParamObj.after at hw hb
  simp only [HalfSpaceObj.init, hw, hb]
  have h1 : lastValue b ((evs.filterMap Sum.getRight?).map ParamEvent.assign) = ((evs.filterMap Sum.getRight?).getLast?).getD b := by
    simp only [lastValue, List.map_map]
    congr 2
    exact List.map_id _
  have h2 : valueBeforeAssign b ((evs.filterMap Sum.getRight?).map ParamEvent.assign) = b := by
    cases evs.filterMap Sum.getRight? <;> simp [valueBeforeAssign, ParamEvent.isWrite, lastValue]
  constructor
  · rw [h1]; rfl
  · intro h
    rw [h, h2]; rfl

/-! ## L1 -/

/-- The values of `sigma` and `g` after some assignments. -/
def l1Now (σ : ℝ) (g : Option (Vec ι)) : List (L1Event ι) → ℝ × Option (Vec ι)
  | [] => (σ, g)
  | .sigma v :: l => l1Now v g l
  | .g v :: l => l1Now σ v l

lemma l1_after (o : L1Obj ι) (evs : List (L1Event ι)) :
    evs.foldl L1Obj.step o = { o with sigma := (l1Now o.sigma o.g evs).1, g := (l1Now o.sigma o.g evs).2 } := by
  induction evs generalizing o with
  | nil => rfl
  | cons e l ih => cases e <;> simp only [List.foldl_cons, ih, L1Obj.step, l1Now]

/-- C126: `L1` follows every assignment of `sigma` and `g` in `__call__` and `prox`; its `proxdual` does as long as `g` was given to the constructor and is still an array,
or nothing was changed in effect. -/
theorem C126_l1_partial (σ : ℝ) (g : Option (Vec ι)) (evs : List (L1Event ι)) (σ' : ℝ) (g' : Option (Vec ι)) (h : l1Now σ g evs = (σ', g')) (x : Vec ι) (τ : ℝ) :
    (evs.foldl L1Obj.step (.init σ g)).op.call x = (L1 σ' g').call x ∧ (evs.foldl L1Obj.step (.init σ g)).op.prox x τ = (L1 σ' g').prox x τ ∧
      ((g.isSome ∧ g'.isSome) ∨ (g = none ∧ g' = none ∧ σ' = σ) → (evs.foldl L1Obj.step (.init σ g)).op.proxdual x τ = (L1 σ' g').proxdual x τ) := by
  rw [l1_after]
  simp only [L1Obj.init, h]
  refine ⟨rfl, rfl, fun hc => ?_⟩
  rcases hc with ⟨h1, h2⟩ | ⟨rfl, rfl, rfl⟩
  · obtain ⟨g, rfl⟩ := Option.isSome_iff_exists.1 h1
    obtain ⟨g', rfl⟩ := Option.isSome_iff_exists.1 h2
    rfl
  · rfl

/-- C126: the claim fails for `L1.proxdual` without `g`: after `sigma` was changed the dual step still uses the old value, and the Moreau identity between `prox` and `proxdual` is lost. -/
theorem C126_l1_dual_refuted [Nonempty ι] (σ σ' : ℝ) (hσ : 0 ≤ σ) (hσ' : 0 ≤ σ') (hne : σ' ≠ σ) (vs : List ℝ) (τ : ℝ) (hτ : 0 < τ) :
    let o : L1Obj ι := (vs.map L1Event.sigma ++ [L1Event.sigma σ']).foldl L1Obj.step (.init σ none)
    (∀ x, o.op.proxdual x τ = (L1 σ none).proxdual x τ) ∧
    ∃ (x p d : Vec ι), o.op.prox x τ = .ok p ∧ o.op.proxdual ((1 / τ) • x) (1 / τ) = .ok d ∧ p + τ • d ≠ x := by
  intro o
  have ho : o = ⟨σ', none, false, -σ, σ⟩ := by
    have : l1Now σ (none : Option (Vec ι)) (vs.map L1Event.sigma ++ [L1Event.sigma σ']) = (σ', none) := by
      clear o
      induction vs generalizing σ with
      | nil => rfl
      | cons v l ih =>
        by_cases hv : 0 ≤ v ∧ σ' ≠ v
        · exact ih v hv.1 hv.2
        · have : ∀ (l : List ℝ) (v : ℝ), l1Now v (none : Option (Vec ι)) (l.map L1Event.sigma ++ [L1Event.sigma σ']) = (σ', none) := by
            intro l; induction l with
            | nil => intro v; rfl
            | cons a l ih => intro v; exact ih a
          exact this l v
    simp only [o, l1_after, L1Obj.init, this, Option.isSome_none]
  rw [ho]
  refine ⟨fun x => rfl, vmk fun _ => τ * (σ + σ'), vmk fun _ => τ * σ, vmk fun _ => σ, ?_, ?_, ?_⟩
  · simp only [L1Obj.op, ProxOp.prox, L1, checkTau, if_neg (not_le.2 hτ)]
    congr 1; ext i
    show softScalar (τ * (σ + σ')) (τ * σ') = τ * σ
    have h0 : 0 ≤ τ * (σ + σ') := by positivity
    unfold softScalar
    rw [abs_of_nonneg h0, show τ * (σ + σ') - τ * σ' = τ * σ by ring, max_eq_left (by positivity)]
    rcases eq_or_lt_of_le hσ with h | h
    · rw [← h]; ring
    · rw [npsign, if_pos (show 0 < τ * (σ + σ') by positivity), mul_one]
  · simp only [L1Obj.op, ProxOp.proxdual, checkTau, if_neg (not_le.2 (one_div_pos.2 hτ)), Bool.false_eq_true, if_false]
    congr 1; ext i
    show boxClip (some (-σ)) (some σ) ((1 / τ) * (τ * (σ + σ'))) = σ
    have : (1 / τ) * (τ * (σ + σ')) = σ + σ' := by field_simp
    rw [this]
    simp only [boxClip, maxLower, minUpper]
    rw [max_eq_left (by linarith), min_eq_right (by linarith)]
  · intro h
    obtain ⟨i⟩ := ‹Nonempty ι›
    have h1 : (τ * σ : ℝ) + τ * σ = τ * (σ + σ') := congrFun (congrArg (fun v : Vec ι => (v : ι → ℝ)) h) i
    apply hne
    have h2 : τ * σ = τ * σ' := by linarith
    exact (mul_left_cancel₀ hτ.ne' h2).symm

/-- C126: with one `sigma` per column, writing new values into that array leaves `proxdual` with the old lower and the new upper bounds. -/
theorem C126_l1cols_refuted (σ σ' : κ → ℝ) (x : Vec (ι × κ)) (τ : ℝ) (hτ : 0 < τ) (hσ : ∀ j, 0 ≤ σ j) (hσ' : ∀ j, 0 ≤ σ' j) :
    ((L1ColsObj.init σ).write σ').prox x τ = (L1cols σ' none).prox x τ ∧
    ∃ p, ((L1ColsObj.init σ).write σ').proxdual x τ = .ok p ∧ IsUniqueProj {y : Vec (ι × κ) | ∀ i j, -σ j ≤ y (i, j) ∧ y (i, j) ≤ σ' j} x p := by
  refine ⟨rfl, ?_⟩
  obtain ⟨p, hp, hu⟩ := C21_box_prox (fun ij : ι × κ => some (-σ ij.2)) (fun ij => some (σ' ij.2))
    (fun ij a b ha hb => by rw [Option.some.injEq] at ha hb; rw [← ha, ← hb]; linarith [hσ ij.2, hσ' ij.2]) x τ hτ
  refine ⟨p, hp, ?_⟩
  have e : boxSet (fun ij : ι × κ => some (-σ ij.2)) (fun ij => some (σ' ij.2)) = {y : Vec (ι × κ) | ∀ i j, -σ j ≤ y (i, j) ∧ y (i, j) ≤ σ' j} := by
    ext y; simp [boxSet]
  rwa [e] at hu

/-! ## Huber -/

/-- C126: the claim fails for `Huber`: after `alpha` was changed, entries above the new `alpha` are treated as they should, but the quadratic part keeps the old one, and the result for the constant array `alpha'` is not the proximal point. -/
theorem C126_huber_refuted [Nonempty ι] (α α' : ℝ) (hα : 0 < α) (hα' : 0 < α') (hne : α' ≠ α) (τ : ℝ) (hτ : 0 < τ) :
    (∀ x : Vec ι, (∀ i, α' < |x i|) → ((HuberObj.init α).assign α').prox x τ = (Huber α').prox x τ) ∧
    ∃ p : Vec ι, ((HuberObj.init α).assign α').prox (vmk fun _ => α') τ = .ok p ∧ ¬ IsProx (XFun.ofReal (huberSpec α')) τ (vmk fun _ => α') p := by
  constructor
  · intro x hx
    simp only [HuberObj.prox, HuberObj.assign, Huber, ProxOp.prox, checkTau, if_neg (not_le.2 hτ)]
    congr 1; ext i
    show (if |x i| > α' then _ else _) = (if |x i| > α' then _ else _)
    rw [if_pos (hx i), if_pos (hx i)]
  · obtain ⟨p, hp, hu⟩ := C16_huber_prox_partial α' hα' (vmk fun _ : ι => α') τ hτ (fun i => Or.inl (le_of_eq (abs_of_pos hα')))
    refine ⟨vmk fun _ => α' / (1 + τ * (1 / α)), ?_, fun h => ?_⟩
    · simp only [HuberObj.prox, HuberObj.assign, HuberObj.init, checkTau, if_neg (not_le.2 hτ)]
      congr 1; ext i
      show (if |α'| > α' then _ else α' / (1 + τ * (1 / α))) = _
      rw [if_neg (not_lt.2 (abs_of_pos hα').le)]
    · have h1 := hu.2 _ h
      have h2 : p = vmk fun _ => α' / (1 + τ * (1 / α')) := by
        simp only [Huber, ProxOp.prox, checkTau, if_neg (not_le.2 hτ)] at hp
        rw [← Except.ok.inj hp]
        ext i
        show (if |α'| > α' then _ else α' / (1 + τ * (1 / α'))) = _
        rw [if_neg (not_lt.2 (abs_of_pos hα').le)]
      rw [h2] at h1
      obtain ⟨i⟩ := ‹Nonempty ι›
      have h3 : α' / (1 + τ * (1 / α)) = α' / (1 + τ * (1 / α')) := congrFun (congrArg (fun v : Vec ι => (v : ι → ℝ)) h1) i
      rw [div_eq_div_iff (by positivity) (by positivity)] at h3
      have h4 := mul_left_cancel₀ hα'.ne' h3
      have h5 : 1 / α' = 1 / α := mul_left_cancel₀ hτ.ne' (by linarith)
      rw [one_div, one_div, inv_inj] at h5
      exact hne h5

/-! ## L2 -/

/-- The arguments a constructor would be given now: those of the object with the events applied. -/
def l2Now (a : L2Args E F) : List (L2Event E F) → L2Args E F
  | [] => a
  | .sigma v :: l => l2Now { a with σ := v } l
  | .alpha v :: l => l2Now { a with α := v } l
  | .q v :: l => l2Now { a with q := v } l
  | .dataF b :: l => l2Now { a with data := match a.data with
      | .opB Op e _ => .opB Op e b
      | .opOnly Op e => .opB Op e b
      | .bOnly b' => .bOnly b'
      | .nothing => .nothing } l
  | .dataE b :: l => l2Now { a with data := match a.data with
      | .opB Op e b' => .opB Op e b'
      | .opOnly Op e => .opOnly Op e
      | .bOnly _ => .bOnly b
      | .nothing => .bOnly b } l
  | .writeResult _ :: l => l2Now a l
  | .prox _ _ :: l => l2Now a l

/-- The cached factorization, whatever `b` is. -/
def ObjCache (ext : L2Ext E F C) (d : L2Data E F) (s : L2State E C) : Prop :=
  match d with
  | .opB Op _ _ => (s.cl = none ∧ s.tausigma = 0) ∨ s.cl = some (ext.choFactor (Op.regNormal s.tausigma))
  | .opOnly Op _ => (s.cl = none ∧ s.tausigma = 0) ∨ s.cl = some (ext.choFactor (Op.regNormal s.tausigma))
  | _ => True

lemma objCache_setB (ext : L2Ext E F C) (d : L2Data E F) (s : L2State E C) (b : F) (h : ObjCache ext d s) : ObjCache ext (d.setB b) s := by
  cases d <;> exact h

lemma objCache_setBE (ext : L2Ext E F C) (d : L2Data E F) (s : L2State E C) (b : E) (h : ObjCache ext d s) : ObjCache ext (d.setBE b) s := by
  cases d <;> exact h

lemma l2obj_prox_inv (ext : L2Ext E F C) (o : L2Obj E F C) (h : ObjCache ext o.args.data o.st) (x : E) (τ : ℝ) :
    (o.prox ext x τ).1.args = o.args ∧ (o.prox ext x τ).1.opTb = o.opTb ∧ ObjCache ext o.args.data (o.prox ext x τ).1.st := by
  obtain ⟨⟨data, q, σ, α, qgrad, niter, warm, solver, ds⟩, t, st, k⟩ := o
  unfold L2Obj.prox
  by_cases hτ : τ ≤ 0
  · simp only [if_pos hτ]
    refine ⟨trivial, trivial, ?_⟩
    cases data <;> exact h
  simp only [if_neg hτ]
  cases data with
  | opB Op e b =>
    simp only [ObjCache] at h ⊢
    by_cases hd : (e || solver.normaleqs) = true
    · simp only [if_pos hd]
      cases t with
      | none => exact ⟨rfl, rfl, h⟩
      | some t =>
        cases e with
        | false =>
          simp only [Bool.false_eq_true, if_false]
          refine ⟨trivial, trivial, ?_⟩
          cases warm <;> simpa using h
        | true =>
          simp only [if_true]
          by_cases hf : ds ≠ .factorize
          · simp only [if_pos hf]
            refine ⟨trivial, trivial, ?_⟩
            cases warm <;> simpa using h
          · simp only [if_neg hf]
            by_cases ht : st.tausigma ≠ τ * σ
            · simp only [if_pos ht]
              refine ⟨trivial, trivial, ?_⟩
              cases warm <;> simp
            · simp only [if_neg ht]
              rcases h with ⟨h1, h2⟩ | h1
              · simp only [h1]
                exact ⟨trivial, trivial, Or.inl ⟨trivial, h2⟩⟩
              · simp only [h1]
                refine ⟨trivial, trivial, ?_⟩
                cases warm <;> simp
    · have he : e = false := by cases e <;> simp_all
      have hs : ¬ solver.normaleqs = true := by subst he; simpa using hd
      subst he
      simp only [if_neg hd, L2.proxBody, Bool.false_eq_true, if_false, if_neg hs]
      refine ⟨trivial, trivial, ?_⟩
      cases warm <;> simpa using h
  | opOnly Op e => exact ⟨rfl, rfl, h⟩
  | bOnly b => exact ⟨rfl, rfl, trivial⟩
  | nothing => exact ⟨rfl, rfl, trivial⟩

lemma l2obj_after (ext : L2Ext E F C) (evs : List (L2Event E F)) (o : L2Obj E F C) (h : ObjCache ext o.args.data o.st) :
    (o.after ext evs).args = l2Now o.args evs ∧ (o.after ext evs).opTb = o.opTb ∧ ObjCache ext (o.after ext evs).args.data (o.after ext evs).st := by
  induction evs generalizing o with
  | nil => exact ⟨rfl, rfl, h⟩
  | cons e l ih =>
    cases e with
    | sigma v => exact ih _ h
    | alpha v => exact ih _ h
    | q v => exact ih _ h
    | dataF b =>
      have := ih { o with args := { o.args with data := o.args.data.setB b } } (objCache_setB ext _ _ b h)
      obtain ⟨⟨data, q, σ, α, qgrad, niter, warm, solver, ds⟩, t, st, k⟩ := o
      cases data <;> exact this
    | dataE b =>
      have := ih { o with args := { o.args with data := o.args.data.setBE b } } (objCache_setBE ext _ _ b h)
      obtain ⟨⟨data, q, σ, α, qgrad, niter, warm, solver, ds⟩, t, st, k⟩ := o
      cases data <;> exact this
    | writeResult w =>
      simp only [L2Obj.after, List.foldl_cons, L2Obj.step, l2Now]
      by_cases hk : o.kept = true
      · simp only [if_pos hk]
        refine ih { o with st := { o.st with x0 := some w } } ?_
        revert h; simp only [ObjCache]; cases o.args.data <;> exact id
      · simp only [if_neg hk]
        exact ih o h
    | prox x τ =>
      obtain ⟨h1, h2, h3⟩ := l2obj_prox_inv ext o h x τ
      have := ih (o.prox ext x τ).1 (by rw [h1]; exact h3)
      rw [h1, h2] at this
      exact this

lemma l2obj_init (ext : L2Ext E F C) (a : L2Args E F) (x0 : Option E) (o : L2Obj E F C) (h : L2Obj.init a x0 = .ok o) :
    o.args = a ∧ o.opTb = L2Obj.dataTerm a ∧ ObjCache ext o.args.data o.st := by
  obtain ⟨data, q, σ, α, qgrad, niter, warm, solver, ds⟩ := a
  unfold L2Obj.init at h
  cases h0 : L2.init ⟨data, q, σ, α, qgrad, niter, warm, solver, ds⟩ x0 with
  | error e => rw [h0] at h; cases h
  | ok st =>
    rw [h0] at h
    cases h
    refine ⟨rfl, rfl, ?_⟩
    unfold L2.init at h0
    split_ifs at h0
    all_goals (cases h0; unfold ObjCache; cases data <;> first | trivial | exact Or.inl ⟨rfl, rfl⟩)

/-- The events do not touch `Op`, the solver or the flags. -/
lemma l2Now_keeps (a : L2Args E F) (evs : List (L2Event E F)) : (l2Now a evs).solver = a.solver ∧
    (∀ Op e b, a.data = .opB Op e b → ∃ b', (l2Now a evs).data = .opB Op e b') := by
  induction evs generalizing a with
  | nil => exact ⟨rfl, fun Op e b h => ⟨b, h⟩⟩
  | cons ev l ih =>
    cases ev with
    | dataF b' =>
      refine ⟨(ih _).1, fun Op e b h => (ih _).2 Op e b' ?_⟩
      simp [h]
    | dataE b' =>
      refine ⟨(ih _).1, fun Op e b h => (ih _).2 Op e b ?_⟩
      simp [h]
    | _ => exact ⟨(ih _).1, fun Op e b h => (ih _).2 Op e b h⟩

/-- With a stored `OpTb` the object computes what an object with another `b` would. -/
lemma l2obj_prox_stored (ext : L2Ext E F C) (o : L2Obj E F C) (Op : LinOp E F) (e : Bool) (b b' : F) (hd : o.args.data = .opB Op e b)
    (hdir : (e || o.args.solver.normaleqs) = true) (ht : o.opTb = some (o.args.σ • Op.rmatvec b')) (x : E) (τ : ℝ) :
    (o.prox ext x τ).2.1 = (L2.prox ext { o.args with data := .opB Op e b' } o.st x τ).2.1 := by
  obtain ⟨⟨data, q, σ, α, qgrad, niter, warm, solver, ds⟩, t, st, k⟩ := o
  simp only at hd hdir ht
  subst hd ht
  unfold L2Obj.prox L2.prox
  by_cases hτ : τ ≤ 0
  · simp only [if_pos hτ]
  simp only [if_neg hτ, if_pos hdir, L2.proxBody]
  cases e with
  | false =>
    have hs : solver.normaleqs = true := by simpa using hdir
    simp only [Bool.false_eq_true, if_false, if_pos hs]
    rfl
  | true =>
    simp only [if_true]
    by_cases hf : ds ≠ .factorize
    · simp only [if_pos hf]; rfl
    · simp only [if_neg hf]
      by_cases hts : st.tausigma ≠ τ * σ
      · simp only [if_pos hts]; rfl
      · simp only [if_neg hts]
        cases hcl : st.cl <;> rfl

/-- Without it (no `Op` and `b`, or `solver="cgls"`) it computes what an object of the present parameters would. -/
lemma l2obj_prox_direct (ext : L2Ext E F C) (o : L2Obj E F C)
    (h : (∀ Op e b, o.args.data ≠ .opB Op e b) ∨ ∃ Op b, o.args.data = .opB Op false b ∧ o.args.solver.normaleqs = false) (x : E) (τ : ℝ) :
    (o.prox ext x τ).2.1 = (L2.prox ext o.args o.st x τ).2.1 := by
  obtain ⟨⟨data, q, σ, α, qgrad, niter, warm, solver, ds⟩, t, st, k⟩ := o
  unfold L2Obj.prox L2.prox
  by_cases hτ : τ ≤ 0
  · simp only [if_pos hτ]
  simp only [if_neg hτ]
  cases data with
  | opB Op e b =>
    rcases h with h | ⟨Op', b', h, hs⟩
    · exact absurd rfl (h Op e b)
    · simp only [L2Data.opB.injEq] at h hs
      obtain ⟨-, rfl, -⟩ := h
      simp only [hs, Bool.or_self, Bool.false_eq_true, if_false]
  | opOnly Op e => rfl
  | bOnly b => rfl
  | nothing => rfl

/-- C126: whatever was assigned or written, `__call__` and `grad` of `L2` are those of the present parameters. -/
theorem C126_l2_call (ext : L2Ext E F C) (a : L2Args E F) (x0 : Option E) (o : L2Obj E F C) (ho : L2Obj.init a x0 = .ok o) (evs : List (L2Event E F)) (x : E) :
    (o.after ext evs).call x = .ok (.num (l2Spec (l2Now a evs) x)) ∧ (o.after ext evs).grad x = L2.grad (l2Now a evs) x := by
  obtain ⟨h1, h2, h3⟩ := l2obj_init ext a x0 o ho
  have h4 := (l2obj_after ext evs o h3).1
  rw [h1] at h4
  exact ⟨by rw [L2Obj.call, h4, C18_l2_call], by rw [L2Obj.grad, h4]⟩

/-- C126: so is `prox` without `Op` and `b`, and with `solver="cgls"` and an operator without a matrix: within the residual `δ` of the inner solver of the proximal point of the present function,
whatever was assigned, written into the arrays, including the array returned by the previous call, or computed before. -/
theorem C126_l2_prox_partial [FiniteDimensional ℝ E] (ext : L2Ext E F C) (δ : ℝ) (hext : L2ExtWithin ext δ) (a : L2Args E F) (x0 : Option E) (o : L2Obj E F C)
    (ho : L2Obj.init a x0 = .ok o) (evs : List (L2Event E F)) (hσ : 0 < (l2Now a evs).σ)
    (h : (∀ Op e b, (l2Now a evs).data ≠ .opB Op e b) ∨ ∃ Op b, (l2Now a evs).data = .opB Op false b ∧ a.solver = .cgls) (x : E) (τ : ℝ) (hτ : 0 < τ) :
    ∃ z p, ((o.after ext evs).prox ext x τ).2.1 = .ok z ∧ IsUniqueProx (XFun.ofReal (l2Spec (l2Now a evs))) τ x p ∧ ‖z - p‖ ≤ δ := by
  obtain ⟨h1, h2, h3⟩ := l2obj_init ext a x0 o ho
  obtain ⟨h4, h5, h6⟩ := l2obj_after ext evs o h3
  rw [h1] at h4
  have hs := (l2Now_keeps a evs).1
  rw [l2obj_prox_direct ext _ (by
    rw [h4, hs]
    rcases h with h | ⟨Op, b, h, hc⟩
    · exact Or.inl h
    · exact Or.inr ⟨Op, b, h, by rw [hc]; rfl⟩), h4]
  refine l2_prox_of_cache ext δ hext _ hσ _ ?_ x τ hτ
  rw [h4] at h6
  revert h6; unfold ObjCache CacheOk
  cases (l2Now a evs).data <;> exact fun h => by trivial

/-- C126: with the normal equations (`solver="legacy"` or `"cg"`) or an operator with a matrix, `prox` uses the data it was built with: it behaves as an object of the present `sigma`, `alpha` and `q` whose data are `(sigma0/sigma) b0`. -/
theorem C126_l2_stale [FiniteDimensional ℝ E] (ext : L2Ext E F C) (δ : ℝ) (hext : L2ExtWithin ext δ) (a : L2Args E F) (x0 : Option E) (o : L2Obj E F C)
    (ho : L2Obj.init a x0 = .ok o) (evs : List (L2Event E F)) (hσ : 0 < (l2Now a evs).σ) (Op : LinOp E F) (e : Bool) (b0 : F) (hd : a.data = .opB Op e b0)
    (hdir : e = true ∨ a.solver = .legacy ∨ a.solver = .cg) (x : E) (τ : ℝ) (hτ : 0 < τ) :
    ∃ z p, ((o.after ext evs).prox ext x τ).2.1 = .ok z ∧
      IsUniqueProx (XFun.ofReal (l2Spec { l2Now a evs with data := .opB Op e ((a.σ / (l2Now a evs).σ) • b0) })) τ x p ∧ ‖z - p‖ ≤ δ := by
  obtain ⟨h1, h2, h3⟩ := l2obj_init ext a x0 o ho
  obtain ⟨h4, h5, h6⟩ := l2obj_after ext evs o h3
  rw [h1] at h4
  obtain ⟨hs, hdata⟩ := l2Now_keeps a evs
  obtain ⟨b, hb⟩ := hdata Op e b0 hd
  have hdir' : (e || a.solver.normaleqs) = true := by
    rcases hdir with rfl | h | h
    · simp
    · simp [h, L2Solver.normaleqs]
    · simp [h, L2Solver.normaleqs]
  rw [l2obj_prox_stored ext _ Op e b ((a.σ / (l2Now a evs).σ) • b0) (by rw [h4, hb]) (by rw [h4, hs]; exact hdir') (by
    rw [h5, h2, h4, L2Obj.dataTerm, hd]
    simp only [if_pos hdir']
    rw [map_smul, smul_smul]
    congr 2
    field_simp), h4]
  refine l2_prox_of_cache ext δ hext { l2Now a evs with data := .opB Op e ((a.σ / (l2Now a evs).σ) • b0) } hσ _ ?_ x τ hτ
  rw [h4, hb] at h6
  exact h6

/-- C126: the claim fails there: with exact inner solves the result is the proximal point of the present function exactly when `sigma Op^H b` is what it was at construction. -/
theorem C126_l2_refuted [FiniteDimensional ℝ E] (ext : L2Ext E F C) (hext : L2ExtWithin ext 0) (a : L2Args E F) (x0 : Option E) (o : L2Obj E F C)
    (ho : L2Obj.init a x0 = .ok o) (evs : List (L2Event E F)) (hσ : 0 < (l2Now a evs).σ) (Op : LinOp E F) (e : Bool) (b0 b : F) (hd : a.data = .opB Op e b0)
    (hb : (l2Now a evs).data = .opB Op e b) (hdir : e = true ∨ a.solver = .legacy ∨ a.solver = .cg) (x : E) (τ : ℝ) (hτ : 0 < τ) :
    ∃ z, ((o.after ext evs).prox ext x τ).2.1 = .ok z ∧
      (IsProx (XFun.ofReal (l2Spec (l2Now a evs))) τ x z ↔ (l2Now a evs).σ • Op.rmatvec b = a.σ • Op.rmatvec b0) := by
  obtain ⟨z, p, hz, hp, hzp⟩ := C126_l2_stale ext 0 hext a x0 o ho evs hσ Op e b0 hd hdir x τ hτ
  have hzp' : z = p := sub_eq_zero.1 (norm_le_zero_iff.1 hzp)
  subst hzp'
  refine ⟨z, hz, ?_⟩
  set n := l2Now a evs with hn
  -- the stationary points of the two functions
  have hwp := wellPosed_regNormal Op (mul_pos hτ hσ).le
  have key : ∀ b' : F, ∃ p', IsUniqueProx (XFun.ofReal (l2Spec { n with data := .opB Op e b' })) τ x p' ∧
      Op.regNormal (τ * n.σ) p' = L2.subQ n (x + τ • (n.σ • Op.rmatvec b')) τ := by
    intro b'
    obtain ⟨p', hp'⟩ := wellPosed_solve hwp (L2.subQ n (x + τ • (n.σ • Op.rmatvec b')) τ)
    refine ⟨p', l2_isUniqueProx { n with data := .opB Op e b' } hσ.le hτ ?_, hp'⟩
    have := regNormal_res Op e b' n.q n.σ n.α n.qgrad n.niter n.warm n.solver n.densesolver τ x p'
    exact this.symm.trans (sub_eq_zero.2 hp')
  obtain ⟨p1, hu1, he1⟩ := key ((a.σ / n.σ) • b0)
  obtain ⟨p2, hu2, he2⟩ := key b
  have hz1 : z = p1 := hu1.2 _ hp.1
  have hnd : ({ n with data := .opB Op e b } : L2Args E F) = n := by
    obtain ⟨data, q, σ, α, qgrad, niter, warm, solver, ds⟩ := n
    simp only at hb
    simp only [hb]
  rw [hnd] at hu2
  have hσb : n.σ • Op.rmatvec ((a.σ / n.σ) • b0) = a.σ • Op.rmatvec b0 := by
    rw [map_smul, smul_smul]; congr 1; field_simp
  rw [hσb] at he1
  have hsub : ∀ u v : E, L2.subQ n (x + τ • u) τ = L2.subQ n (x + τ • v) τ → u = v := by
    intro u v huv
    unfold L2.subQ at huv
    have h' : x + τ • u = x + τ • v := by
      cases hq : n.q with
      | none => simpa [hq] using huv
      | some q => simpa [hq] using huv
    exact smul_right_injective E hτ.ne' (add_left_cancel h')
  constructor
  · intro h
    have h2 : z = p2 := hu2.2 _ h
    rw [← hz1] at he1
    rw [← h2, he1] at he2
    exact (hsub _ _ he2).symm
  · intro h
    rw [h, ← he1] at he2
    have h0 : p2 - p1 = 0 := by
      have h1 := wellPosed_inj hwp (p2 - p1)
      rw [map_sub, he2, sub_self, norm_zero] at h1
      exact norm_le_zero_iff.1 h1
    rw [hz1, ← sub_eq_zero.1 h0]
    exact hu2.1

/-- C126: `b` given only after the construction (`Op` without `b`, then `f.b = ...`) makes `prox` fail with `AttributeError` unless `solver="cgls"` and the operator has no matrix. -/
theorem C126_l2_late_data_refuted (ext : L2Ext E F C) (a : L2Args E F) (x0 : Option E) (o : L2Obj E F C) (ho : L2Obj.init a x0 = .ok o)
    (Op : LinOp E F) (e : Bool) (hd : a.data = .opOnly Op e) (hdir : e = true ∨ a.solver = .legacy ∨ a.solver = .cg) (b : F) (x : E) (τ : ℝ) (hτ : 0 < τ) :
    ((o.after ext [.dataF b]).prox ext x τ).2.1 = .error .attributeError := by
  obtain ⟨h1, h2, h3⟩ := l2obj_init ext a x0 o ho
  obtain ⟨args, t, st, k⟩ := o
  obtain ⟨data, q, σ, α, qgrad, niter, warm, solver, ds⟩ := a
  simp only at h1 hd hdir
  subst h1 hd
  have ht : t = none := by simpa [L2Obj.dataTerm] using h2
  subst ht
  rcases hdir with rfl | rfl | rfl <;>
    simp [L2Obj.after, L2Obj.step, L2Data.setB, L2Obj.prox, not_le.2 hτ, L2Solver.normaleqs]

/-! ## Arrays returned by an operator -/

/-- C126: the claim fails for the array returned by a warm-started `L2`: it is kept as the next starting point, so a caller who writes `w` into it changes the next result when the inner solver is stopped early.
With `niter = 0` (the inner solver returns where it starts) the next result is whatever was written. -/
theorem C126_l2_result_refuted (ext : L2Ext E F C) (hext : ∀ M y s, ext.lsqr M y 0 (some s) = s) (Op : LinOp E F) (b : F) (x x' w : E) (τ : ℝ) (hτ : 0 < τ) :
    ∃ o : L2Obj E F C, L2Obj.init ⟨.opB Op false b, none, 1, 1, true, .const 0, true, .legacy, .default⟩ none = .ok o ∧
      ((o.after ext [.prox x τ, .writeResult w]).prox ext x' τ).2.1 = .ok w ∧
      ((o.after ext [.prox x τ]).prox ext x' τ).2.1 = (o.prox ext x τ).2.1 := by
  refine ⟨⟨_, _, ⟨0, none, 0, none⟩, false⟩, rfl, ?_, ?_⟩
  · simp [L2Obj.after, L2Obj.step, L2Obj.prox, not_le.2 hτ, L2Obj.dataTerm, L2Solver.normaleqs, NIter.get, hext]
  · simp [L2Obj.after, L2Obj.step, L2Obj.prox, not_le.2 hτ, L2Obj.dataTerm, L2Solver.normaleqs, NIter.get, hext]

/-- C126: the claim fails for the gradient of a linear `Quadratic`: the array returned is its `b`, so writing `w` into it turns the function into `<w, x> + c`. -/
theorem C126_quadratic_grad_refuted (b w : E) (c : ℝ) (x : E) :
    Quadratic.grad (.bOnly b) x = .ok b ∧ Quadratic.call (quadWriteGrad (.bOnly b) w) c x = .ok (.num (⟪w, x⟫ + c)) ∧
      (⟪w, x⟫ ≠ ⟪b, x⟫ → Quadratic.call (quadWriteGrad (.bOnly b) w) c x ≠ Quadratic.call (.bOnly b) c x) ∧
      ∀ (Op : LinOp E E) (e : Bool) (b : Option E), Quadratic.call (quadWriteGrad (.op Op e b) w) c x = Quadratic.call (.op Op e b) c x := by
  refine ⟨rfl, rfl, fun h h' => ?_, fun _ _ _ => rfl⟩
  simp only [Quadratic.call, quadWriteGrad, Except.ok.injEq, CallVal.num.injEq] at h'
  exact h (by linarith)

/-! ## The hypotheses can be met -/

section witnesses

/-- C126_indicator_writes with two writes into the bounds. -/
example : BoxObj (.after (fun _ : Fin 2 => some 0) [.write fun _ => some (-1), .write fun _ => some (-2)]) (.after (fun _ => some 1) []) = Box (fun _ : Fin 2 => some (-2)) (fun _ => some 1) :=
  (C126_indicator_writes (E := ℝ) (κ := Fin 1) (fun _ : Fin 2 => some 0) (fun _ => some 1) [.write fun _ => some (-1), .write fun _ => some (-2)] [] 0 [] 1 (fun _ y => y)
    ⟨0, 0, fun _ _ => by simp⟩ 0 [] (by intro e he; simp at he; rcases he with rfl | rfl <;> rfl) (by simp) (by simp) (by simp)).1

/-- C126_indicator_assigned: a write, then two assignments: the projection is that of the written value. -/
example : valueBeforeAssign (5 : ℝ) [.write 4, .assign 1, .write 7, .assign 2] = 4 ∧ lastValue (5 : ℝ) [.write 4, .assign 1, .write 7, .assign 2] = 2 := ⟨rfl, rfl⟩

/-- C126_ball_refuted: the radius is reduced from 2 to 1 and a point at distance 3 is projected: the result is outside the present ball. -/
example : ∃ p : ℝ, (EuclideanBallObj (.after 0 []) (.after 2 [.assign 1])).prox (3 : ℝ) 1 = .ok p ∧ ¬ (EuclideanBallObj (.after 0 []) (.after 2 [.assign 1])).call p = .ok (.bool true) := by
  obtain ⟨p, h1, -, h3⟩ := C126_ball_refuted (0 : ℝ) 2 1 (by norm_num) [] 3 1 one_pos
  refine ⟨p, h1, fun h => ?_⟩
  rcases h3.1 h with h | h <;> norm_num at h

/-- C126_halfspace_refuted: the normal 2 is overwritten by 1. -/
example : ∃ p : ℝ, (HalfSpaceObj.step (.init (2 : ℝ) 0) (Sum.inl (ParamEvent.write 1))).prox (1 : ℝ) 1 = .ok p ∧ ¬ IsProj {y : ℝ | ⟪(1 : ℝ), y⟫ ≤ 0} 1 p := by
  obtain ⟨p, h1, h2, -⟩ := C126_halfspace_refuted (2 : ℝ) 1 (by norm_num) (by norm_num) [] 0 1 (by simp) 1 one_pos
  exact ⟨p, h1, fun h => by have := h2.1 h; norm_num at this⟩

/-- C126_halfspace_assigned: `w` and `b` assigned, then `w` overwritten. -/
example : valueBeforeAssign (1 : ℝ) ([Sum.inl (.assign 2), Sum.inr 5, Sum.inl (.write 3)].filterMap (Sum.getLeft? (β := ℝ))) = 1 := rfl

/-- C126_l1_partial: `sigma` changed twice and `g` replaced. -/
example : l1Now (ι := Fin 2) 1 (some 0) [.sigma 2, .g (some (vmk fun _ => 1)), .sigma 3] = (3, some (vmk fun _ => 1)) := rfl

/-- C126_l1_dual_refuted, C126_l1cols_refuted, C126_huber_refuted: parameters doubled. -/
example : (0 : ℝ) ≤ 1 ∧ (0 : ℝ) ≤ 2 ∧ (2 : ℝ) ≠ 1 ∧ (0 : ℝ) < 1 := by norm_num

/-- The identity on the line. -/
noncomputable def attrId : LinOp ℝ ℝ := ⟨LinearMap.id, LinearMap.id, fun _ _ => rfl⟩

/-- `L2(Op=I, b=1, solver=...)`. -/
noncomputable def attrArgs (s : L2Solver) : L2Args ℝ ℝ := ⟨.opB attrId false 1, none, 1, 1, true, .const 10, true, s, .default⟩

/-- C126_l2_prox_partial with `cgls`: `b` and `sigma` are changed, `prox` is called, its result overwritten, and the next result is the proximal point of the present function. -/
example : ∃ (ext : L2Ext ℝ ℝ (ℝ →ₗ[ℝ] ℝ)) (o : L2Obj ℝ ℝ (ℝ →ₗ[ℝ] ℝ)) (z : ℝ), L2Obj.init (attrArgs .cgls) none = .ok o ∧
    ((o.after ext [.sigma 2, .dataF 5, .prox 1 1, .writeResult 100]).prox ext 3 1).2.1 = .ok z ∧
    IsUniqueProx (XFun.ofReal fun x : ℝ => 1 * ‖x - 5‖ ^ 2) 1 3 z := by
  obtain ⟨ext, hext⟩ := exists_exactExt (E := ℝ) (F := ℝ)
  obtain ⟨z, p, h1, h2, h3⟩ := C126_l2_prox_partial ext 0 hext (attrArgs .cgls) none ⟨_, _, ⟨0, none, 0, none⟩, false⟩ rfl [.sigma 2, .dataF 5, .prox 1 1, .writeResult 100]
    (by show (0 : ℝ) < 2; norm_num) (Or.inr ⟨attrId, 5, rfl, rfl⟩) 3 1 one_pos
  refine ⟨ext, _, z, rfl, h1, ?_⟩
  have : z = p := sub_eq_zero.1 (norm_le_zero_iff.1 h3)
  rw [this]
  have e : (fun x : ℝ => 1 * ‖x - 5‖ ^ 2) = l2Spec (l2Now (attrArgs .cgls) [.sigma 2, .dataF 5, .prox 1 1, .writeResult 100]) := by
    funext x; simp [l2Spec, l2Now, attrArgs, L2Data.setB, attrId]
  rw [e]; exact h2

/-- C126_l2_stale, C126_l2_refuted with the default solver: after `b` was changed from 1 to 5 the result is not the proximal point. -/
example : ∃ (ext : L2Ext ℝ ℝ (ℝ →ₗ[ℝ] ℝ)) (o : L2Obj ℝ ℝ (ℝ →ₗ[ℝ] ℝ)) (z : ℝ), L2Obj.init (attrArgs .legacy) none = .ok o ∧
    ((o.after ext [.dataF 5]).prox ext 3 1).2.1 = .ok z ∧ ¬ IsProx (XFun.ofReal (l2Spec (l2Now (attrArgs .legacy) [.dataF 5]))) 1 3 z := by
  obtain ⟨ext, hext⟩ := exists_exactExt (E := ℝ) (F := ℝ)
  obtain ⟨z, h1, h2⟩ := C126_l2_refuted ext hext (attrArgs .legacy) none ⟨_, _, ⟨0, none, 0, none⟩, false⟩ rfl [.dataF 5]
    (by show (0 : ℝ) < 1; norm_num) attrId false 1 5 rfl rfl (Or.inr (Or.inl rfl)) 3 1 one_pos
  refine ⟨ext, _, z, rfl, h1, fun h => ?_⟩
  have := h2.1 h
  simp [l2Now, attrArgs, attrId] at this

/-- C126_l2_late_data_refuted and C126_l2_result_refuted: such objects and solvers exist. -/
example : (∃ o : L2Obj ℝ ℝ Unit, L2Obj.init ⟨.opOnly attrId false, none, 1, 1, true, .const 10, true, .legacy, .default⟩ none = .ok o) ∧
    ∃ ext : L2Ext ℝ ℝ Unit, ∀ M y s, ext.lsqr M y 0 (some s) = s :=
  ⟨⟨_, rfl⟩, ⟨fun _ _ y => y, fun _ => (), fun _ y => y, fun _ y _ x0 => x0.getD y, fun _ y _ _ => y, fun _ _ y _ _ => y⟩, fun _ _ _ => rfl⟩

/-- C126_quadratic_grad_refuted. -/
example : Quadratic.call (quadWriteGrad (.bOnly (1 : ℝ)) 2) 0 1 ≠ Quadratic.call (.bOnly (1 : ℝ)) 0 1 :=
  (C126_quadratic_grad_refuted (1 : ℝ) 2 0 1).2.2.1 (by norm_num)

end witnesses

end Verif
