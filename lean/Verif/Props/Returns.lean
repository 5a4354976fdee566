import Verif.Model.PrimalDual
import Verif.Props.StepGuard
import Verif.Props.Symmetry
import Verif.Props.Relaxed
import Verif.Props.Restart

/-!
# C112: a solver returns exactly when its arguments are admissible

The operators are required to accept every positive step and to reject every other one, as the classes of the library do (C01).  What a solver needs besides is spelled out for each
of them, and is necessary as well as sufficient.
-/

open scoped RealInnerProductSpace

namespace Verif

variable {E F : Type} [NormedAddCommGroup E] [InnerProductSpace ℝ E] [NormedAddCommGroup F] [InnerProductSpace ℝ F]

/-- Specification: the call returns. -/
def Returns {α : Type} (r : Py α) : Prop := ∃ a, r = .ok a

/-- Specification: `prox` and `proxdual` return for positive steps and raise `ValueError` for the others. -/
structure Guarded (f : ProxOp E) : Prop where
  accepts : AcceptsGoodTau f
  rejects : RejectsBadTau f

lemma returns_ok {α : Type} (a : α) : Returns (.ok a : Py α) ↔ True := ⟨fun _ => trivial, fun _ => ⟨a, rfl⟩⟩

lemma returns_pure {α : Type} (a : α) : Returns (pure a : Py α) ↔ True := returns_ok a

lemma returns_error {α : Type} (e : PyErr) : Returns (.error e : Py α) ↔ False := ⟨fun ⟨_, h⟩ => (nomatch h), False.elim⟩

lemma returns_bind {α β : Type} {x : Py α} {k : α → Py β} {P Q : Prop} (hx : Returns x ↔ P) (h : ∀ a, x = .ok a → (Returns (k a) ↔ Q)) : Returns (x >>= k) ↔ P ∧ Q := by
  rw [← hx]
  cases x with
  | error e => exact ⟨fun ⟨_, h⟩ => (nomatch h), fun ⟨⟨_, h⟩, _⟩ => (nomatch h)⟩
  | ok a =>
    rw [py_ok_bind, h a rfl]
    exact ⟨fun hq => ⟨⟨a, rfl⟩, hq⟩, And.right⟩

/-- The first value may matter: `x` returns a value for which `k` returns. -/
lemma returns_bind_val {α β : Type} {x : Py α} {k : α → Py β} {Q : α → Prop} (h : ∀ a, x = .ok a → (Returns (k a) ↔ Q a)) : Returns (x >>= k) ↔ ∃ a, x = .ok a ∧ Q a := by
  cases x with
  | error e => exact ⟨fun ⟨_, h⟩ => (nomatch h), fun ⟨_, h, _⟩ => (nomatch h)⟩
  | ok a =>
    rw [py_ok_bind, h a rfl]
    exact ⟨fun hq => ⟨a, rfl, hq⟩, fun ⟨b, hb, hq⟩ => by cases hb; exact hq⟩

lemma Guarded.prox {f : ProxOp E} (hf : Guarded f) (x : E) (τ : ℝ) : Returns (f.prox x τ) ↔ 0 < τ := by
  refine ⟨fun ⟨p, hp⟩ => ?_, fun h => (hf.accepts x τ h).1⟩
  by_contra hc
  rw [(hf.rejects x τ (not_lt.1 hc)).1] at hp
  cases hp

lemma Guarded.proxdual {f : ProxOp E} (hf : Guarded f) (x : E) (τ : ℝ) : Returns (f.proxdual x τ) ↔ 0 < τ := by
  refine ⟨fun ⟨p, hp⟩ => ?_, fun h => (hf.accepts x τ h).2⟩
  by_contra hc
  rw [(hf.rejects x τ (not_lt.1 hc)).2] at hp
  cases hp

lemma forRange_returns_idx {S : Type} {body : ℕ → S → Py (S × Bool)} {P : ℕ → Prop} {I : S → Prop} (hb : ∀ i s s' b, I s → body i s = .ok (s', b) → I s' ∧ b = false)
    (h : ∀ i s, I s → (Returns (body i s) ↔ P i)) : ∀ n i s, I s → (Returns (forRange body n i s) ↔ ∀ j < n, P (i + j))
  | 0, _, s, _ => by simp [forRange, returns_ok]
  | n + 1, i, s, hs => by
    simp only [forRange]
    cases hx : body i s with
    | error e =>
      simp only [returns_error, false_iff]
      intro hall
      obtain ⟨a, ha⟩ := (h i s hs).2 (hall 0 (by omega))
      rw [hx] at ha; cases ha
    | ok q =>
      obtain ⟨s', b⟩ := q
      obtain ⟨hs', rfl⟩ := hb i s s' b hs hx
      simp only [Bool.false_eq_true, if_false]
      rw [forRange_returns_idx hb h n (i + 1) s' hs']
      constructor
      · intro hall j hj
        cases j with
        | zero => exact (h i s hs).1 ⟨_, hx⟩
        | succ j => rw [show i + (j + 1) = i + 1 + j by omega]; exact hall j (by omega)
      · intro hall j hj
        rw [show i + 1 + j = i + (j + 1) by omega]
        exact hall (j + 1) (by omega)

lemma forRange_returns {S : Type} {body : ℕ → S → Py (S × Bool)} {P : ℕ → Prop} (hb : ∀ i s s' b, body i s = .ok (s', b) → b = false) (h : ∀ i s, Returns (body i s) ↔ P i) (n i : ℕ) (s : S) :
    Returns (forRange body n i s) ↔ ∀ j < n, P (i + j) :=
  forRange_returns_idx (I := fun _ => True) (fun i s s' b _ h => ⟨trivial, hb i s s' b h⟩) (fun i s _ => h i s) n i s trivial

lemma forRange_returns_inv {S : Type} {body : ℕ → S → Py (S × Bool)} {P : Prop} {I : S → Prop} (hI : ∀ i s s' b, I s → body i s = .ok (s', b) → I s')
    (h : ∀ i s, I s → (Returns (body i s) ↔ P)) (n i : ℕ) (s : S) (hs : I s) : Returns (forRange body n i s) ↔ n = 0 ∨ P := by
  induction n generalizing i s with
  | zero => simp [forRange, returns_ok]
  | succ n ih =>
    simp only [forRange, Nat.succ_ne_zero, false_or]
    cases hx : body i s with
    | error e =>
      rw [← h i s hs, hx]
      simp only [returns_error]
    | ok q =>
      obtain ⟨s', b⟩ := q
      have hP : P := (h i s hs).1 ⟨_, hx⟩
      cases b with
      | true => simp only [if_true, returns_ok, hP]
      | false =>
        simp only [Bool.false_eq_true, if_false, ih (i + 1) s' (hI i s s' false hs hx)]
        tauto

lemma forRange_returns_const {S : Type} {body : ℕ → S → Py (S × Bool)} {P : Prop} (h : ∀ i s, Returns (body i s) ↔ P) (n i : ℕ) (s : S) : Returns (forRange body n i s) ↔ n = 0 ∨ P :=
  forRange_returns_inv (I := fun _ => True) (fun _ _ _ _ _ _ => trivial) (fun i s _ => h i s) n i s trivial

lemma mapPy_returns {α : Type} : ∀ {m : ℕ} (h : Fin m → Py α), Returns (mapPy h) ↔ ∀ i, Returns (h i)
  | 0, _ => by simp [mapPy, returns_ok]
  | m + 1, h => by
    rw [Fin.forall_fin_succ, ← mapPy_returns fun i => h i.succ]
    simp only [mapPy]
    cases h0 : h 0 with
    | error e => simp [returns_error]
    | ok a =>
      cases mapPy fun i => h i.succ with
      | error e => simp [returns_error, returns_ok]
      | ok t => simp [returns_ok]

/-! ## The solvers -/

/-- C112 for `ProximalPoint` without a tolerance. -/
theorem C112_proximal_point_partial {f : ProxOp E} (hf : Guarded f) (x0 : E) (τ : ℝ) (n : ℕ) : Returns (ProximalPoint f x0 τ n none) ↔ n = 0 ∨ 0 < τ :=
  forRange_returns_const (fun i s => (returns_bind (hf.prox _ _) fun a _ => returns_pure _).trans (by tauto)) n 0 _

/-- C112 for `ProximalPoint` with a tolerance, when the function is positive. -/
theorem C112_proximal_point_tol_partial {f : ProxOp E} (hf : Guarded f) {φ : E → ℝ} (hφ : EvaluatesNum f φ) (hpos : ∀ x, φ x ≠ 0) (x0 : E) (τ t : ℝ) (n : ℕ) :
    Returns (ProximalPoint f x0 τ n (some t)) ↔ n = 0 ∨ 0 < τ := by
  have hbody : ∀ s : PPState E, (∀ d, s.pf = some d → d ≠ 0) → ∀ x, f.prox s.x τ = .ok x → ∀ i, ∃ r, ProximalPoint.body f τ (some t) i s = .ok (⟨x, some (φ x), s.log ++ [x]⟩, r) := by
    intro s hs x hx i
    simp only [ProximalPoint.body, hx, py_ok_bind, hφ x, CallVal.toReal]
    cases hp : s.pf with
    | none => simp only [pyRatio, py_ok_bind]; exact ⟨_, rfl⟩
    | some d => simp only [pyRatio, if_neg (hs d hp), py_ok_bind]; exact ⟨_, rfl⟩
  refine forRange_returns_inv (I := fun s => ∀ d, s.pf = some d → d ≠ 0) ?_ ?_ n 0 _ (fun d h => by cases h)
  · intro i s s' b hs h
    cases hx : f.prox s.x τ with
    | error e => simp only [ProximalPoint.body, hx] at h; cases h
    | ok x =>
      obtain ⟨r, hr⟩ := hbody s hs x hx i
      rw [hr] at h; cases h
      intro d hd; cases hd; exact hpos x
  · intro i s hs
    rw [← hf.prox s.x τ]
    constructor
    · rintro ⟨r, hr⟩
      cases hx : f.prox s.x τ with
      | error e => simp only [ProximalPoint.body, hx] at hr; cases hr
      | ok x => exact ⟨x, rfl⟩
    · rintro ⟨x, hx⟩
      obtain ⟨r, hr⟩ := hbody s hs x hx i
      exact ⟨_, hr⟩

/-- C112 fails for `ProximalPoint` with a tolerance of at most 1 when the function returns 0: `ZeroDivisionError` in the second iteration, for all operators whose value is always 0. -/
theorem C112_proximal_point_tol_refuted {f : ProxOp E} (hf : Guarded f) (hφ : EvaluatesNum f fun _ => 0) (x0 : E) {τ t : ℝ} (hτ : 0 < τ) (ht : t ≤ 1) (n : ℕ) :
    ProximalPoint f x0 τ (n + 2) (some t) = .error .zeroDivisionError := by
  obtain ⟨x, hx⟩ := (hf.prox x0 τ).2 hτ
  obtain ⟨y, hy⟩ := (hf.prox x τ).2 hτ
  have ht' : ¬ |(1 : ℝ) - 0| < t := by rw [sub_zero, abs_one]; exact not_lt.2 ht
  have hc : ∀ x, f.call x = .ok (.num 0) := hφ
  simp only [ProximalPoint, forRange, ProximalPoint.body, hx, hc, CallVal.toReal, pyRatio, py_ok_bind, pure, Except.pure, decide_eq_true_eq, if_neg ht', hy, if_true]
  rfl

/-- C112 for `ADMM`. -/
theorem C112_admm {f g : ProxOp E} (hf : Guarded f) (hg : Guarded g) (x0 z0 : Option E) (τ : ℝ) (n : ℕ) (gfirst : Bool) :
    Returns (ADMM f g x0 z0 τ n gfirst) ↔ (x0.isSome ∨ z0.isSome) ∧ (n = 0 ∨ 0 < τ) := by
  have hbody : ∀ i s, Returns (ADMM.body f g τ gfirst i s) ↔ 0 < τ := fun i s => by
    cases gfirst
    · exact (returns_bind (hf.prox _ _) fun a _ => returns_bind (hg.prox _ _) fun b _ => returns_pure _).trans (by tauto)
    · exact (returns_bind (hg.prox _ _) fun a _ => returns_bind (hf.prox _ _) fun b _ => returns_pure _).trans (by tauto)
  refine returns_bind ?_ fun a _ => forRange_returns_const hbody n 0 _
  cases x0 <;> cases z0 <;> simp [x0z0Init, returns_ok, returns_error]

lemma hqs_nobreak {f g : ProxOp E} {tau : StepSpec} {gfirst : Bool} {i : ℕ} {s s' : SplitState E} {b : Bool} (h : HQS.body f g tau gfirst i s = .ok (s', b)) : b = false := by
  simp only [HQS.body] at h
  cases hτ : tau.at i with
  | error e => rw [hτ] at h; cases h
  | ok τ =>
    rw [hτ] at h
    simp only [py_ok_bind] at h
    split_ifs at h
    · cases hz : g.prox s.x τ with
      | error e => rw [hz] at h; cases h
      | ok z =>
        rw [hz] at h
        simp only [py_ok_bind] at h
        cases hx : f.prox z τ with
        | error e => rw [hx] at h; cases h
        | ok x => rw [hx] at h; cases h; rfl
    · cases hx : f.prox s.z τ with
      | error e => rw [hx] at h; cases h
      | ok x =>
        rw [hx] at h
        simp only [py_ok_bind] at h
        cases hz : g.prox x τ with
        | error e => rw [hz] at h; cases h
        | ok z => rw [hz] at h; cases h; rfl

/-- C112 for `HQS`: every step of the run is there and positive. -/
theorem C112_hqs {f g : ProxOp E} (hf : Guarded f) (hg : Guarded g) (x0 z0 : Option E) (tau : StepSpec) (n : ℕ) (gfirst : Bool) :
    Returns (HQS f g x0 z0 tau n gfirst) ↔ (x0.isSome ∨ z0.isSome) ∧ ∀ i < n, ∃ τ, tau.at i = .ok τ ∧ 0 < τ := by
  have hbody : ∀ i s, Returns (HQS.body f g tau gfirst i s) ↔ ∃ τ, tau.at i = .ok τ ∧ 0 < τ := fun i s => by
    refine returns_bind_val fun τ _ => ?_
    cases gfirst
    · exact (returns_bind (hf.prox _ _) fun a _ => returns_bind (hg.prox _ _) fun b _ => returns_pure _).trans (by tauto)
    · exact (returns_bind (hg.prox _ _) fun a _ => returns_bind (hf.prox _ _) fun b _ => returns_pure _).trans (by tauto)
  refine returns_bind ?_ fun a _ => (forRange_returns ?_ hbody n 0 _).trans (by simp only [Nat.zero_add])
  · cases x0 <;> cases z0 <;> simp [x0z0Init, returns_ok, returns_error]
  · intro i s s' b h
    exact hqs_nobreak h

/-- C112 for `LinearizedADMM`. -/
theorem C112_linearized_admm {f : ProxOp E} {g : ProxOp F} (hf : Guarded f) (hg : Guarded g) (A : LinOp E F) (x0 : Option E) (z0 : Option F) (τ μ : ℝ) (n : ℕ) :
    Returns (LinearizedADMM f g A x0 z0 τ μ n) ↔ x0.isSome ∧ (n = 0 ∨ 0 < τ ∧ 0 < μ) := by
  have hbody : ∀ i s, Returns (LinearizedADMM.body f g A τ μ i s) ↔ 0 < τ ∧ 0 < μ := fun i s => by
    simp only [LinearizedADMM.body]
    split_ifs with h0
    · rw [returns_error, h0]; simp
    · exact (returns_bind (hf.prox _ _) fun a _ => returns_bind (hg.prox _ _) fun b _ => returns_pure _).trans (by tauto)
  refine returns_bind ?_ fun a _ => forRange_returns_const hbody n 0 _
  cases x0 <;> cases z0 <;> simp [x0z0InitOp, returns_ok, returns_error]

/-- C112 for `ADMML2`, which needs a positive step even for no iterations. -/
theorem C112_admml2 (inv : E → F → ℝ → E) {g : ProxOp F} (hg : Guarded g) (A : LinOp E F) (x0 : Option E) (z0 : Option F) (τ : ℝ) (n : ℕ) (gfirst : Bool) :
    Returns (ADMML2 inv g A x0 z0 τ n gfirst) ↔ x0.isSome ∧ 0 < τ := by
  have hbody : ∀ i s, Returns (ADMML2.body inv g A τ gfirst i s) ↔ 0 < τ := fun i s => by
    cases gfirst
    · exact (returns_bind (hg.prox _ _) fun b _ => returns_pure _).trans (by tauto)
    · exact (returns_bind (hg.prox _ _) fun b _ => returns_pure _).trans (by tauto)
  refine returns_bind ?_ fun a _ => ?_
  · cases x0 <;> cases z0 <;> simp [x0z0InitOp, returns_ok, returns_error]
  · simp only
    split_ifs with h1 h2
    · rw [returns_error]; simp [h1.le]
    · rw [returns_error, h2]; simp
    · rw [forRange_returns_const hbody]
      have : 0 < τ := lt_of_le_of_ne (not_lt.1 h1) (Ne.symm h2)
      tauto

/-- C112 for the Douglas-Rachford solver, which needs an iteration. -/
theorem C112_douglas_rachford {f g : ProxOp E} (hf : Guarded f) (hg : Guarded g) (x0 : E) (τ η : ℝ) (n : ℕ) (gfirst : Bool) :
    Returns (DouglasRachford f g x0 τ η n gfirst) ↔ 0 < n ∧ 0 < τ := by
  have hbody : ∀ i s, Returns (DR.body f g τ η gfirst i s) ↔ 0 < τ := fun i s => by
    cases gfirst
    · exact (returns_bind (hf.prox _ _) fun a _ => returns_bind (hg.prox _ _) fun b _ => returns_pure _).trans (by tauto)
    · exact (returns_bind (hg.prox _ _) fun a _ => returns_bind (hf.prox _ _) fun b _ => returns_pure _).trans (by tauto)
  rcases Nat.eq_zero_or_pos n with rfl | hn
  · simp [DouglasRachford, forRange, py_ok_bind, returns_error]
  · refine (returns_bind (forRange_returns_const hbody n 0 _) fun r hr => (?_ : _ ↔ True)).trans ?_
    · obtain ⟨x, hx⟩ := dr_some hn hr
      simp only [hx, returns_pure]
    · have := hn.ne'
      tauto

/-- C112 for `PPXA`: at least one function and, unless no iteration is asked for, weights that are not 0 and steps `tau / w` that are positive. -/
theorem C112_ppxa {m : ℕ} {fs : Fin m → ProxOp E} (hf : ∀ i, Guarded (fs i)) (weights : Option (Fin m → ℝ)) (y0 : Fin m → E) (τ η : ℝ) (n : ℕ) (tol : ℝ) (mx : E → ℝ) :
    Returns (PPXA fs weights y0 τ η n tol mx) ↔ 0 < m ∧ (n = 0 ∨ ∀ i, weights.getD (fun _ => 1 / (m : ℝ)) i ≠ 0 ∧ 0 < τ / weights.getD (fun _ => 1 / (m : ℝ)) i) := by
  have hbody : ∀ (w : Fin m → ℝ) i s, Returns (PPXA.body fs w τ η tol mx i s) ↔ ∀ i, w i ≠ 0 ∧ 0 < τ / w i := fun w i s => by
    simp only [PPXA.body]
    refine (returns_bind (mapPy_returns _) (Q := True) fun a _ => ?_).trans ?_
    · split_ifs <;> exact returns_pure _
    · rw [and_true]
      refine forall_congr' fun i => ?_
      split_ifs with h
      · simp [returns_error, h]
      · simp [(hf i).prox, h]
  simp only [PPXA]
  split_ifs with h
  · rw [returns_error]; simp [h]
  · have hm : 0 < m := Nat.pos_of_ne_zero h
    cases weights with
    | none => rw [forRange_returns_const (hbody _)]; simp [hm]
    | some w => rw [forRange_returns_const (hbody _)]; simp [hm]

/-- C112 for `GeneralizedProximalGradient` with smooth terms whose gradient returns. -/
theorem C112_generalized {l m : ℕ} {fs : Fin l → ProxOp E} {gs : Fin m → ProxOp E} (hf : ∀ i x, Returns ((fs i).grad x)) (hg : ∀ j, Guarded (gs j)) (x0 : E) (tau : Option ℝ)
    (eps : StepSpec) (weights : Option (List ℝ)) (η : ℝ) (n : ℕ) (acc : Accel) :
    Returns (GeneralizedProximalGradient fs gs x0 tau eps weights η n acc) ↔
      ((weights.getD (List.replicate m (1 / (m : ℝ)))).length = m ∧ (weights.getD (List.replicate m (1 / (m : ℝ)))).sum = 1) ∧ acc ≠ .other ∧
        (n = 0 ∨ ∀ j : Fin m, ∃ e, eps.at j = .ok e ∧ (weights.getD (List.replicate m (1 / (m : ℝ)))).getD j 0 ≠ 0 ∧
          0 < tau.getD 1 * e / (weights.getD (List.replicate m (1 / (m : ℝ)))).getD j 0) := by
  have hbody : ∀ (w : Fin m → ℝ) (τ : ℝ) i s, Returns (GPG.body fs gs w eps τ η acc i s) ↔ ∀ j : Fin m, ∃ e, eps.at j = .ok e ∧ w j ≠ 0 ∧ 0 < τ * e / w j := fun w τ i s => by
    simp only [GPG.body]
    refine (returns_bind (P := True) (by rw [mapPy_returns]; simp [hf]) fun a _ =>
      returns_bind (P := ∀ j : Fin m, ∃ e, eps.at j = .ok e ∧ w j ≠ 0 ∧ 0 < τ * e / w j) ?_ (Q := True) fun a _ => returns_pure _).trans (by rw [true_and, and_true])
    rw [mapPy_returns]
    refine forall_congr' fun j => returns_bind_val fun e _ => ?_
    split_ifs with h
    · simp [returns_error, h]
    · simp [(hg j).prox, h]
  have hall : ∀ ws : List ℝ, Returns (if ws.length ≠ m ∨ ws.sum ≠ 1 then (.error .valueError : Py (GPGState E m)) else if acc = .other then .error .notImplementedError
      else forRange (GPG.body fs gs (fun j => ws.getD j 0) eps (tau.getD 1) η acc) n 0 ⟨x0, x0, 1, fun _ => x0, []⟩) ↔ (ws.length = m ∧ ws.sum = 1) ∧ acc ≠ .other ∧
        (n = 0 ∨ ∀ j : Fin m, ∃ e, eps.at j = .ok e ∧ ws.getD j 0 ≠ 0 ∧ 0 < tau.getD 1 * e / ws.getD j 0) := fun ws => by
    split_ifs with h1 h2
    · rw [returns_error]; tauto
    · rw [returns_error]; tauto
    · rw [forRange_returns_const (hbody _ _)]; tauto
  cases weights with
  | none => exact hall _
  | some ws => exact hall _

/-- C112 for `ConsensusADMM`. -/
theorem C112_consensus_admm {m : ℕ} {fs : Fin m → ProxOp E} (hf : ∀ i, Guarded (fs i)) (x0 : E) (τ : ℝ) (n : ℕ) (tol : ℝ) (mx : E → ℝ) :
    Returns (ConsensusADMM fs x0 τ n tol mx) ↔ n = 0 ∨ 0 < m ∧ 0 < τ := by
  refine forRange_returns_const (fun i s => ?_) n 0 _
  simp only [ConsensusADMM.body]
  refine (returns_bind (P := ∀ _ : Fin m, 0 < τ) ?_ (Q := 0 < m) fun a _ => ?_).trans ?_
  · rw [mapPy_returns]
    exact forall_congr' fun i => (hf i).prox _ _
  · split_ifs with h
    · rw [returns_error]; simp [h]
    · rw [returns_pure]; simp [Nat.pos_of_ne_zero h]
    · rw [returns_pure]; simp [Nat.pos_of_ne_zero h]
  · exact ⟨fun ⟨h, hm⟩ => ⟨hm, h ⟨0, hm⟩⟩, fun ⟨hm, h⟩ => ⟨fun _ => h, hm⟩⟩

lemma printCheck_returns (e : StepSpec) (n : ℕ) : Returns (e.printCheck n) ↔ 0 < n ∨ ∃ ts, e = .arr ts ∧ ts.length ≠ 1 := by
  rcases Nat.eq_zero_or_pos n with rfl | hn
  · cases e with
    | scalar t => simp [StepSpec.printCheck, returns_error]
    | arr ts =>
      match ts with
      | [] => simp [StepSpec.printCheck, returns_ok]
      | [t] => simp [StepSpec.printCheck, returns_error]
      | t :: u :: ts => simp [StepSpec.printCheck, returns_ok]
  · simp [printCheck_pos _ hn, returns_ok, hn]

lemma pg_body_tau {f g : ProxOp E} {a : PGArgs} (htol : a.tol = none) {i : ℕ} {s s' : PGState E} {b : Bool}
    (h : PG.body f g a false i s = .ok (s', b)) : b = false ∧ s'.tau = s.tau := by
  simp only [PG.body, PG.step, htol, Bool.false_eq_true, if_false] at h
  cases hε : a.epsg.at i with
  | error e => rw [hε] at h; cases h
  | ok ε =>
    rw [hε] at h
    simp only [py_ok_bind] at h
    split_ifs at h
    · cases hg : f.grad s.y with
      | error e => rw [hg] at h; cases h
      | ok v =>
        rw [hg] at h
        simp only [py_ok_bind] at h
        cases hp : g.prox (s.y - s.tau • v) (ε * s.tau) with
        | error e => rw [hp] at h; cases h
        | ok p => rw [hp] at h; cases h; exact ⟨rfl, rfl⟩
    · cases hg : f.grad s.x with
      | error e => rw [hg] at h; cases h
      | ok v =>
        rw [hg] at h
        simp only [py_ok_bind] at h
        cases hp : g.prox (s.x - s.tau • v) (ε * s.tau) with
        | error e => rw [hp] at h; cases h
        | ok p => rw [hp] at h; cases h; exact ⟨rfl, rfl⟩

/-- C112 for `ProximalGradient` with a given step and no tolerance.  With a constant `epsg` (or an array with one entry) at least one iteration is needed. -/
theorem C112_proximal_gradient {f g : ProxOp E} (hf : ∀ x, Returns (f.grad x)) (hg : Guarded g) (x0 : E) (a : PGArgs) (τ : ℝ) (hτ : a.tau = some τ) (hb : a.backtracking = false)
    (htol : a.tol = none) :
    Returns (ProximalGradient f g x0 a) ↔ (0 < a.niter ∨ ∃ ts, a.epsg = .arr ts ∧ ts.length ≠ 1) ∧ a.acceleration ≠ .other ∧ ∀ i < a.niter, ∃ e, a.epsg.at i = .ok e ∧ 0 < e * τ := by
  obtain ⟨tau, bt, β, epsg, niter, niterback, acc, eta, tol⟩ := a
  simp only at hτ hb htol ⊢
  subst hτ hb htol
  have hstep : ∀ e s, s.tau = τ → (Returns (PG.step f g ⟨some τ, false, β, epsg, niter, niterback, acc, eta, none⟩ false e s) ↔ 0 < e * τ) := fun e s hs => by
    simp only [PG.step, Bool.false_eq_true, if_false]
    split_ifs
    · exact (returns_bind (P := True) (by simp [hf]) fun a _ => returns_bind (hg.prox _ _) fun b _ => returns_pure _).trans (by rw [hs]; tauto)
    · exact (returns_bind (P := True) (by simp [hf]) fun a _ => returns_bind (hg.prox _ _) fun b _ => returns_pure _).trans (by rw [hs]; tauto)
  have hbody : ∀ i s, s.tau = τ → (Returns (PG.body f g ⟨some τ, false, β, epsg, niter, niterback, acc, eta, none⟩ false i s) ↔ ∃ e, epsg.at i = .ok e ∧ 0 < e * τ) := fun i s hs =>
    returns_bind_val fun e _ => (returns_bind (hstep e s hs) fun a _ => returns_pure _).trans (by tauto)
  refine returns_bind (printCheck_returns epsg niter) fun a _ => ?_
  simp only
  split_ifs with h
  · simp [returns_error, h]
  · simp only [ne_eq, h, not_false_iff, true_and]
    exact (forRange_returns_idx (I := fun s => s.tau = τ) (fun i s s' b hs hb => ⟨(pg_body_tau rfl hb).2.trans hs, (pg_body_tau rfl hb).1⟩) hbody niter 0 _ rfl).trans
      (by simp only [Nat.zero_add])

lemma backtrack_returns {f g : ProxOp E} (hf : ∀ x, Returns (f.grad x)) (hfc : ∀ x, Returns (f.call x)) (hg : Guarded g) (x : E) (ε : ℝ) {β : ℝ} (hβ : 0 < β) :
    ∀ (n : ℕ) (τ : ℝ) (z : Option E), 0 < τ → ((Returns (backtrack f g x ε β n τ z) ↔ (n = 0 ∧ z.isSome) ∨ (0 < n ∧ 0 < ε)) ∧ ∀ r, backtrack f g x ε β n τ z = .ok r → 0 < r.2)
  | 0, τ, z, hτ => by
    cases z with
    | none => exact ⟨by simp [backtrack, returns_error], fun r h => by cases h⟩
    | some z => exact ⟨by simp [backtrack, returns_ok], fun r h => by cases h; exact hτ⟩
  | n + 1, τ, z, hτ => by
    obtain ⟨gx, hgx⟩ := hf x
    obtain ⟨fx, hfx⟩ := hfc x
    simp only [backtrack, hgx, py_ok_bind]
    by_cases hε : 0 < ε
    · obtain ⟨p, hp⟩ := (hg.prox (x - τ • gx) (ε * τ)).2 (mul_pos hε hτ)
      obtain ⟨fp, hfp⟩ := hfc p
      simp only [hp, hfx, hfp, py_ok_bind]
      obtain ⟨ih1, ih2⟩ := backtrack_returns hf hfc hg x ε hβ n (τ * β) (some p) (mul_pos hτ hβ)
      split_ifs
      · exact ⟨by simp [returns_ok, hε], fun r h => by cases h; exact hτ⟩
      · refine ⟨ih1.trans ?_, ih2⟩
        rcases Nat.eq_zero_or_pos n with h | h <;> simp [h, hε]
    · have hle : ε * τ ≤ 0 := mul_nonpos_of_nonpos_of_nonneg (not_lt.1 hε) hτ.le
      simp only [(hg.rejects _ _ hle).1]
      exact ⟨⟨fun ⟨_, h⟩ => (nomatch h), fun h => absurd (h.resolve_left (by simp)).2 hε⟩, fun r h => by cases h⟩

/-- C112 for `ProximalGradient` with a constant `epsg`, with or without backtracking and tolerance: at least one iteration, and at least one trial when backtracking. -/
theorem C112_proximal_gradient_backtracking {f g : ProxOp E} (hf : ∀ x, Returns (f.grad x)) (hfc : ∀ x, Returns (f.call x)) (hg : Guarded g) (hgc : ∀ x, Returns (g.call x)) (x0 : E) (a : PGArgs)
    (ε : ℝ) (he : a.epsg = .scalar ε) (hτ : ∀ τ, a.tau = some τ → 0 < τ) (hβ : 0 < a.β) :
    Returns (ProximalGradient f g x0 a) ↔ 0 < a.niter ∧ a.acceleration ≠ .other ∧ 0 < ε ∧ (a.tau = none ∨ a.backtracking = true → 0 < a.niterback) := by
  obtain ⟨tau, bt, β, epsg, niter, niterback, acc, eta, tol⟩ := a
  simp only at he hτ hβ ⊢
  subst he
  have hstep : ∀ (bt' : Bool) (s : PGState E), 0 < s.tau → (Returns (PG.step f g ⟨tau, bt, β, .scalar ε, niter, niterback, acc, eta, tol⟩ bt' ε s) ↔ 0 < ε ∧ (bt' = true → 0 < niterback)) ∧
      ∀ r, PG.step f g ⟨tau, bt, β, .scalar ε, niter, niterback, acc, eta, tol⟩ bt' ε s = .ok r → 0 < r.2 := by
    intro bt' s hs
    simp only [PG.step]
    cases bt' with
    | true =>
      obtain ⟨k1, k2⟩ := backtrack_returns hf hfc hg s.y ε hβ niterback s.tau none hs
      simp only [if_true, forall_const]
      cases hbt : backtrack f g s.y ε β niterback s.tau none with
      | error e =>
        rw [hbt, returns_error] at k1
        refine ⟨⟨fun ⟨_, h⟩ => (nomatch h), fun h => (k1.2 (.inr ⟨h.2, h.1⟩)).elim⟩, fun r h => by cases h⟩
      | ok r =>
        obtain ⟨x, t⟩ := r
        have ht : 0 < t := k2 _ hbt
        have hcond : 0 < niterback ∧ 0 < ε := (k1.1 ⟨_, hbt⟩).resolve_left (by simp)
        simp only [py_ok_bind]
        split_ifs
        · exact ⟨by simp [returns_pure, hcond], fun r h => by cases h; exact ht⟩
        · obtain ⟨gx, hgx⟩ := hf x
          obtain ⟨p, hp⟩ := (hg.prox (x - t • gx) (ε * t)).2 (mul_pos hcond.2 ht)
          simp only [hgx, hp, py_ok_bind]
          exact ⟨by simp [returns_pure, hcond], fun r h => by cases h; exact ht⟩
    | false =>
      simp only [Bool.false_eq_true, if_false, false_implies, and_true]
      have hpos : 0 < ε * s.tau ↔ 0 < ε := mul_pos_iff_of_pos_right hs
      split_ifs
      · refine ⟨(returns_bind (P := True) (by simp [hf]) fun a _ => returns_bind (hg.prox _ _) fun b _ => returns_pure _).trans (by rw [hpos]; tauto), ?_⟩
        intro r h
        obtain ⟨v, hv⟩ := hf s.y
        rw [hv] at h
        simp only [py_ok_bind] at h
        cases hp : g.prox (s.y - s.tau • v) (ε * s.tau) with
        | error e => rw [hp] at h; cases h
        | ok p => rw [hp] at h; cases h; exact hs
      · refine ⟨(returns_bind (P := True) (by simp [hf]) fun a _ => returns_bind (hg.prox _ _) fun b _ => returns_pure _).trans (by rw [hpos]; tauto), ?_⟩
        intro r h
        obtain ⟨v, hv⟩ := hf s.x
        rw [hv] at h
        simp only [py_ok_bind] at h
        cases hp : g.prox (s.x - s.tau • v) (ε * s.tau) with
        | error e => rw [hp] at h; cases h
        | ok p => rw [hp] at h; cases h; exact hs
  have hbody : ∀ (bt' : Bool) i (s : PGState E), 0 < s.tau → (Returns (PG.body f g ⟨tau, bt, β, .scalar ε, niter, niterback, acc, eta, tol⟩ bt' i s) ↔ 0 < ε ∧ (bt' = true → 0 < niterback)) ∧
      ∀ s' b, PG.body f g ⟨tau, bt, β, .scalar ε, niter, niterback, acc, eta, tol⟩ bt' i s = .ok (s', b) → 0 < s'.tau := by
    intro bt' i s hs
    obtain ⟨k1, k2⟩ := hstep bt' s hs
    simp only [PG.body, StepSpec.at, py_ok_bind]
    cases hst : PG.step f g ⟨tau, bt, β, .scalar ε, niter, niterback, acc, eta, tol⟩ bt' ε s with
    | error e =>
      rw [hst, returns_error] at k1
      exact ⟨⟨fun ⟨_, h⟩ => (nomatch h), fun h => (k1.2 h).elim⟩, fun s' b h => by cases h⟩
    | ok r =>
      have ht := k2 r hst
      have hcond := k1.1 ⟨r, hst⟩
      simp only [py_ok_bind]
      cases tol with
      | none => exact ⟨by simp only [returns_pure, true_iff]; exact hcond, fun s' b h => by cases h; exact ht⟩
      | some t =>
        obtain ⟨pf, hpf⟩ := hfc r.1
        obtain ⟨pg, hpg⟩ := hgc r.1
        simp only [hpf, hpg, py_ok_bind]
        exact ⟨by simp only [returns_pure, true_iff]; exact hcond, fun s' b h => by cases h; exact ht⟩
  refine (returns_bind (printCheck_returns _ niter) (Q := acc ≠ .other ∧ (niter = 0 ∨ 0 < ε ∧ (tau = none ∨ bt = true → 0 < niterback))) fun a _ => ?_).trans ?_
  · simp only
    split_ifs with h
    · simp [returns_error, h]
    · simp only [ne_eq, h, not_false_iff, true_and]
      cases tau with
      | none => exact (forRange_returns_inv (fun i s s' b hs h => (hbody true i s hs).2 s' b h) (fun i s hs => (hbody true i s hs).1) niter 0 _ one_pos).trans (by simp)
      | some τ => exact (forRange_returns_inv (fun i s s' b hs h => (hbody bt i s hs).2 s' b h) (fun i s hs => (hbody bt i s hs).1) niter 0 _ (hτ τ rfl)).trans (by simp)
  · constructor
    · rintro ⟨h1, h2, h3⟩
      have h1' : 0 < niter := h1.resolve_right fun ⟨_, h, _⟩ => by cases h
      exact ⟨h1', h2, h3.resolve_left h1'.ne'⟩
    · rintro ⟨h1, h2, h3⟩
      exact ⟨.inl h1, h2, .inr h3⟩

/-- C112 for `PrimalDual`: every step of the run is there and positive. -/
theorem C112_primal_dual {f : ProxOp E} {g : ProxOp F} (hf : Guarded f) (hg : Guarded g) (A : LinOp E F) (x0 : E) (y0 : Option F) (z : Option E) (tau mu : StepSpec) (θ : ℝ) (n : ℕ) (gfirst : Bool) :
    Returns (PrimalDual f g A x0 y0 z tau mu θ n gfirst) ↔ ∀ i < n, (∃ τ, tau.atStrict i = .ok τ ∧ 0 < τ) ∧ ∃ μ, mu.atStrict i = .ok μ ∧ 0 < μ := by
  have hbody : ∀ i s, Returns (PrimalDual.body f g A z tau mu θ gfirst i s) ↔ (∃ τ, tau.atStrict i = .ok τ ∧ 0 < τ) ∧ ∃ μ, mu.atStrict i = .ok μ ∧ 0 < μ := fun i s => by
    refine (returns_bind_val (Q := fun τ => ∃ μ, mu.atStrict i = .ok μ ∧ 0 < τ ∧ 0 < μ) fun τ _ => returns_bind_val fun μ _ => ?_).trans ?_
    · cases gfirst
      · exact (returns_bind (hf.prox _ _) fun a _ => returns_bind (hg.proxdual _ _) fun b _ => returns_pure _).trans (by tauto)
      · exact (returns_bind (hg.proxdual _ _) fun a _ => returns_bind (hf.prox _ _) fun b _ => returns_pure _).trans (by tauto)
    · constructor
      · rintro ⟨τ, h1, μ, h2, h3, h4⟩
        exact ⟨⟨τ, h1, h3⟩, μ, h2, h4⟩
      · rintro ⟨⟨τ, h1, h3⟩, μ, h2, h4⟩
        exact ⟨τ, h1, μ, h2, h3, h4⟩
  exact (forRange_returns (fun i s s' b h => (pd_body_out h).1) hbody n 0 _).trans (by simp only [Nat.zero_add])

/-- C112 for `TwIST`: the parameters are given, or the extreme eigenvalues allow to compute them. -/
theorem C112_twist {g : ProxOp E} (hg : Guarded g) (hc : ∀ x, Returns (g.call x)) (A : LinOp E F) (b : F) (x0 : E) (αβ : Option (ℝ × ℝ)) (eigs : ℝ × ℝ) (n : ℕ) (returncost : Bool) :
    Returns (TwIST g A b x0 αβ eigs n returncost) ↔ αβ.isSome ∨ eigs.1 ≠ 0 ∧ 0 ≤ eigs.2 / eigs.1 ∧ eigs.1 + eigs.2 ≠ 0 := by
  have hgr : ∀ x, Returns (twistGrad A b x) := fun x => ⟨_, rfl⟩
  have hbody : ∀ α β i s, Returns (TwIST.body g A b α β returncost i s) ↔ True := fun α β i s => by
    simp only [TwIST.body]
    refine (returns_bind (P := True) (by simp [hgr]) fun a _ => returns_bind (hg.prox _ _) (Q := True) fun p _ => ?_).trans (by norm_num)
    split_ifs
    · exact (returns_bind (P := True) (by simp [hc]) fun v _ => returns_pure _).trans (by tauto)
    · exact returns_pure _
  have hrest : ∀ α β : ℝ, Returns (do
      let g0 ← twistGrad A b x0
      let x ← g.prox (x0 - g0) 1
      forRange (TwIST.body g A b α β returncost) n 0 ⟨x, x0, [], []⟩) ↔ True := fun α β =>
    (returns_bind (P := True) (by simp [hgr]) fun a _ => returns_bind (hg.prox _ _) fun p _ => forRange_returns_const (hbody _ _) n 0 _).trans (by norm_num)
  cases αβ with
  | some p => exact (hrest p.1 p.2).trans (by simp)
  | none =>
    refine (returns_bind (x := twistParams eigs.1 eigs.2) (P := eigs.1 ≠ 0 ∧ 0 ≤ eigs.2 / eigs.1 ∧ eigs.1 + eigs.2 ≠ 0) ?_ fun ab _ => hrest ab.1 ab.2).trans (by simp)
    simp only [twistParams]
    split_ifs with h1 h2 h3
    · simp [returns_error, h1]
    · simp only [returns_error, false_iff]; rintro ⟨-, h, -⟩; linarith
    · simp [returns_error, h3]
    · simp only [returns_ok, true_iff]; exact ⟨h1, not_lt.1 h2, h3⟩

/-! ## AdaptivePrimalDual -/

/-- C112 for `AdaptivePrimalDual` with the documented parameters: positive steps, `alpha` between 0 and 1, `eta` at most 1, `delta` positive, no `z`. -/
theorem C112_adaptive_partial {f : ProxOp E} {g : ProxOp F} (hf : Guarded f) (hg : Guarded g) (A : LinOp E F) (x0 : E) {tau mu alpha : ℝ} (a : APDArgs E F) (hτ : 0 < tau) (hμ : 0 < mu)
    (hα : 0 < alpha) (hα1 : alpha < 1) (hη : 0 < a.eta) (hη1 : a.eta ≤ 1) (hδ : 0 < a.delta) (hz : a.z = none) : Returns (AdaptivePrimalDual f g A x0 tau mu alpha a) := by
  have hsteps : ∀ (p d t m α : ℝ), 0 < t → 0 < m → 0 < α → α < 1 → ∃ t' m' α', apdSteps a.eta a.s a.delta p d t m α = .ok (t', m', α') ∧ 0 < t' ∧ 0 < m' ∧ 0 < α' ∧ α' < 1 := by
    intro p d t m α ht hm h0 h1
    have h1' : 0 < 1 - α := by linarith
    have hαη : α * a.eta < 1 := by nlinarith
    simp only [apdSteps, if_neg h1'.ne', if_neg hδ.ne']
    split_ifs
    · exact ⟨_, _, _, rfl, by positivity, by positivity, by positivity, hαη⟩
    · exact ⟨_, _, _, rfl, by positivity, by positivity, by positivity, hαη⟩
    · exact ⟨_, _, _, rfl, ht, hm, h0, h1⟩
  have hbody : ∀ s : APDState E F, 0 < s.tau → 0 < s.mu → 0 < s.alpha → s.alpha < 1 → ∃ s', APD.body f g A a s = .ok s' ∧ (0 < s'.tau ∧ 0 < s'.mu ∧ 0 < s'.alpha ∧ s'.alpha < 1) ∧ s'.iiter = s.iiter + 1 := by
    intro s ht hm h0 h1
    obtain ⟨x, hx⟩ := (hf.prox (s.x - s.tau • apdATy a.z s.ATy) s.tau).2 ht
    obtain ⟨y, hy⟩ := (hg.proxdual (s.y + s.mu • ((2 : ℝ) • A.matvec x - s.Ax)) s.mu).2 hm
    obtain ⟨t', m', α', hst, h⟩ := hsteps ‖(1 / s.tau) • (s.x - x) - (s.ATy - A.rmatvec y)‖ ‖(1 / s.mu) • (s.y - y) - (s.Ax - A.matvec x)‖ s.tau s.mu s.alpha ht hm h0 h1
    rw [hz] at hx
    simp only [APD.body, hz, hx, hy, py_ok_bind, hst]
    exact ⟨_, rfl, h, rfl⟩
  have hloop : ∀ (fuel : ℕ) (s : APDState E F), 0 < s.tau → 0 < s.mu → 0 < s.alpha → s.alpha < 1 → a.niter ≤ s.iiter + fuel → Returns (APD.loop f g A a fuel s) := by
    intro fuel
    induction fuel with
    | zero =>
      intro s _ _ _ _ hle
      simp only [APD.loop]
      rw [if_neg (by omega)]
      exact ⟨_, rfl⟩
    | succ fuel ih =>
      intro s ht hm h0 h1 hle
      simp only [APD.loop]
      split_ifs
      · obtain ⟨s', hs', ⟨h2, h3, h4, h5⟩, h6⟩ := hbody s ht hm h0 h1
        simp only [hs', py_ok_bind]
        exact ih s' h2 h3 h4 h5 (by omega)
      · exact ⟨_, rfl⟩
  exact hloop _ _ hτ hμ hα hα1 (by simp)

/-! ## Which exception -/

/-- C112: a step that is not positive raises `ValueError` in every solver that makes an iteration. -/
theorem C112_bad_step {f g : ProxOp E} {h : ProxOp F} (hf : RejectsBadTau f) (hg : RejectsBadTau g) (A : LinOp E F) (x0 : E) (y0 : Option F) (z : Option E) (z0 : Option E) {τ : ℝ} (hτ : τ ≤ 0)
    (η θ : ℝ) (mu : StepSpec) (hmu : ∃ μ, mu.atStrict 0 = .ok μ) (n : ℕ) (gfirst : Bool) :
    ProximalPoint f x0 τ (n + 1) none = .error .valueError ∧ ADMM f g (some x0) z0 τ (n + 1) gfirst = .error .valueError ∧ HQS f g (some x0) z0 (.scalar τ) (n + 1) gfirst = .error .valueError ∧
      DouglasRachford f g x0 τ η (n + 1) gfirst = .error .valueError ∧ PrimalDual f h A x0 y0 z (.scalar τ) mu θ (n + 1) false = .error .valueError := by
  have h1 : ∀ x, f.prox x τ = .error .valueError := fun x => (hf x τ hτ).1
  have h2 : ∀ x, g.prox x τ = .error .valueError := fun x => (hg x τ hτ).1
  obtain ⟨μ, hμ⟩ := hmu
  refine ⟨?_, ?_, ?_, ?_, ?_⟩
  · simp only [ProximalPoint, forRange, ProximalPoint.body, h1]; rfl
  · cases z0 <;> cases gfirst <;> simp only [ADMM, x0z0Init, forRange, ADMM.body, h1, h2, py_ok_bind, Bool.false_eq_true, if_false, if_true] <;> rfl
  · cases z0 <;> cases gfirst <;> simp only [HQS, x0z0Init, forRange, HQS.body, StepSpec.at, h1, h2, py_ok_bind, Bool.false_eq_true, if_false, if_true] <;> rfl
  · cases gfirst <;> simp only [DouglasRachford, forRange, DR.body, h1, h2, Bool.false_eq_true, if_false, if_true] <;> rfl
  · have hs : (StepSpec.scalar τ).atStrict 0 = .ok τ := rfl
    simp only [PrimalDual, forRange, PrimalDual.body, hs, hμ, h1, py_ok_bind, Bool.false_eq_true, if_false]; rfl

/-- The operators of the library meet the hypothesis. -/
theorem C112_classes {ι κ ρ : Type} [Fintype ι] [Fintype κ] [Fintype ρ] (σ σ' α μ k : ℝ) (s : κ → ℝ) (g : Option (Vec ι)) (g' : Option (Vec (ι × κ))) (lo up : ι → Bound) (n : ℕ)
    (as : Vec ι → List ι) (as' : (κ → ℝ) → List κ) (svd : Vec (ι × κ) → SVD ι κ ρ) (eig : Vec (ι × κ) → κ → ℝ) (cg : (Vec κ → Vec κ) → Vec κ → Vec κ) (Op : LinOp E (Vec κ)) (d : Vec κ) {p q : ℕ}
    (hσ : σ' ≠ 0) (hα : 0 < α) :
    Guarded (L1 σ g) ∧ Guarded (L1cols s g') ∧ Guarded (Huber α : ProxOp (Vec ι)) ∧ Guarded (Box lo up) ∧ Guarded (L0 σ : ProxOp (Vec ι)) ∧ Guarded (QuadraticEnvelopeCard μ : ProxOp (Vec ι)) ∧
      Guarded (RelaxedMS σ' k : ProxOp (Vec ι)) ∧ Guarded (L0Ball as n) ∧ Guarded (L10Ball as' n : ProxOp (Vec (ι × κ))) ∧ Guarded (Nuclear svd eig σ) ∧ Guarded (AffineSet cg Op d) ∧
      Guarded (Hankel : ProxOp (Vec (Fin p × Fin q))) := by
  obtain ⟨a1, a2, a3, a4, a5, a6, a7, a8, a9, a10, a11, a12⟩ := C01_classes_accept σ σ' α μ k s g g' lo up n as as' svd eig cg Op d (p := p) (q := q) hσ hα
  obtain ⟨b1, b2, -, -, -, -, b3⟩ := C01_norms (E := E) σ σ' α α s g g'
  obtain ⟨b4, -, -, -, b8, b9, b11, b12, -⟩ := C01_indicators (E := E) lo up (0 : E) (0 : E) 0 0 0 (fun _ _ _ => 0) 0 n as as' cg Op d (p := p) (q := q) (m := 0) Fin.elim0 false fun _ => 0
  obtain ⟨b5, b6, b7, -⟩ := C01_nonconvex (ι := ι) σ k μ id 0 0
  obtain ⟨-, -, b7', -⟩ := C01_nonconvex (ι := ι) σ' k μ id 0 0
  obtain ⟨b10, -, -⟩ := C01_matrices svd eig (fun _ => 0) σ 0 0 (fun _ _ _ => 0) 0 (fun _ => .ok (.num 0)) (L0 0)
  exact ⟨⟨a1, b1⟩, ⟨a2, b2⟩, ⟨a3, b3⟩, ⟨a4, b4⟩, ⟨a5, b5⟩, ⟨a6, b6⟩, ⟨a7, b7'⟩, ⟨a8, b8⟩, ⟨a9, b9⟩, ⟨a10, b10⟩, ⟨a11, b11⟩, ⟨a12, b12⟩⟩

/-! ## The hypotheses are met -/

lemma halfSqFn_guarded : Guarded halfSqFn where
  accepts := accepts_dual rfl (fun h => nomatch h) fun x τ hτ => ⟨_, checkTau_pos hτ _⟩
  rejects := rejects_of_guarded _ (fun m hm x τ hτ => by cases hm; exact checkTau_nonpos hτ _) fun m hm x τ hτ => by cases hm

/-- A run of `ADMM` on `|x|` and a box returns, one with the step 0 does not. -/
example (x0 : Vec (Fin 3)) (n : ℕ) : Returns (ADMM (L1 1 none) (Box (fun _ => some 0) fun _ => some 2) (some x0) none 1 n true) ∧ ¬ Returns (ADMM (L1 1 none) (Box (fun _ => some 0) fun _ => some 2) (some x0) none 0 (n + 1) true) := by
  obtain ⟨h1, -, -, h4, -⟩ := C112_classes (E := ℝ) (ι := Fin 3) (κ := Fin 1) (ρ := Fin 1) 1 1 1 1 1 (fun _ => 1) none none (fun _ => some 0) (fun _ => some 2) 1 (fun _ => []) (fun _ => []) (fun _ => ⟨fun _ => 0, 0, 0⟩)
    (fun _ _ => 0) (fun _ x => x) ⟨0, 0, by simp⟩ 0 (p := 1) (q := 1) one_ne_zero one_pos
  exact ⟨(C112_admm h1 h4 _ _ _ _ _).2 (by simp), fun h => by have := (C112_admm h1 h4 _ _ _ _ _).1 h; simp at this⟩

/-- The function `x²/2 + 1` is never 0, the zero function always is. -/
example : EvaluatesNum (⟨fun x => .ok (.num (x ^ 2 / 2 + 1)), halfSqFn.prox?, none, none, true, 1⟩ : ProxOp ℝ) (fun x => x ^ 2 / 2 + 1) ∧ (∀ x : ℝ, x ^ 2 / 2 + 1 ≠ 0) ∧
    EvaluatesNum zeroFn fun _ => 0 := ⟨fun _ => rfl, fun x => by positivity, fun _ => rfl⟩

/-- Backtracking with no trial allowed raises. -/
example (x0 : ℝ) (n : ℕ) : Returns (ProximalGradient halfSqFn halfSqFn x0 ⟨none, false, 1 / 2, .scalar 1, n + 1, 100, .fista, 1, some 1⟩) ∧
    ¬ Returns (ProximalGradient halfSqFn halfSqFn x0 ⟨none, false, 1 / 2, .scalar 1, n + 1, 0, .fista, 1, some 1⟩) := by
  have h : ∀ k, Returns (ProximalGradient halfSqFn halfSqFn x0 ⟨none, false, 1 / 2, .scalar 1, n + 1, k, .fista, 1, some 1⟩) ↔ 0 < k := fun k =>
    (C112_proximal_gradient_backtracking (fun _ => ⟨_, rfl⟩) (fun _ => ⟨_, rfl⟩) halfSqFn_guarded (fun _ => ⟨_, rfl⟩) x0 _ 1 rfl (by simp) (by norm_num)).trans (by simp)
  exact ⟨(h 100).2 (by norm_num), fun hc => by simpa using (h 0).1 hc⟩

end Verif
