import Verif.Props.Restart
import Verif.Model.CallbackEdit
import Verif.Props.InPlace
import Verif.Props.Aliasing

/-! # C125: what a callback does to the run when it writes into its argument or keeps it -/

open Filter Topology

namespace Verif

variable {E F SF : Type} [NormedAddCommGroup E] [InnerProductSpace ℝ E] [NormedAddCommGroup F] [InnerProductSpace ℝ F]

lemma except_map_id {α : Type} (r : Py α) : r.map (fun a => a) = r := by cases r <;> rfl

lemma editLast_id {S : Type} (body : ℕ → S → Py (S × Bool)) : editLast body (fun _ s => s) = body := by
  funext i s
  simp only [editLast, Prod.mk.eta]
  exact except_map_id _

/-- If the body does not read what the callback writes, only the last edit is seen. -/
lemma editLast_lost {S : Type} {body : ℕ → S → Py (S × Bool)} {ed : ℕ → S → S} (hb : ∀ i s r, body i s = .ok r → r.2 = false) (hi : ∀ i j s, body i (ed j s) = body i s) :
    ∀ n i s, forRange (editLast body ed) (n + 1) i s = (forRange body (n + 1) i s).map (ed (i + n)) := by
  intro n
  induction n with
  | zero =>
    intro i s
    simp only [forRange, editLast]
    cases h : body i s with
    | error e => rfl
    | ok r => simp [Except.map]
  | succ n ih =>
    intro i s
    rw [forRange, forRange, editLast]
    cases h : body i s with
    | error e => rfl
    | ok r =>
      obtain ⟨s', b⟩ := r
      have hbf : b = false := hb i s _ h
      subst hbf
      simp only [Except.map, Bool.false_eq_true, if_false]
      rw [ih (i + 1) (ed i s')]
      have : forRange body (n + 1) (i + 1) (ed i s') = forRange body (n + 1) (i + 1) s' := by rw [forRange, forRange, hi]
      rw [this, show i + 1 + n = i + (n + 1) by omega]
      rfl

/-! ## Callbacks that only read -/

/-- C125: a callback that leaves its arguments as they are changes nothing, in any of the solvers. -/
theorem C125_reading (f g : ProxOp E) (h : ProxOp F) (A : LinOp E F) (inv : E → F → ℝ → E) {m : ℕ} (fs : Fin m → ProxOp E) (x0 : E) (x0' z0' : Option E) (w0 : Option F) (z : Option E)
    (τ μ η θ tol : ℝ) (tol' : Option ℝ) (tau mu : StepSpec) (a : PGArgs) (n : ℕ) (gfirst : Bool) (mx : E → ℝ) :
    PPEdit f x0 τ n tol' (fun _ x => x) = ProximalPoint f x0 τ n tol' ∧
    PGEdit f g x0 a (fun _ x => x) = ProximalGradient f g x0 a ∧
    HQSEdit f g x0' z0' tau n gfirst (fun _ x z => (x, z)) = HQS f g x0' z0' tau n gfirst ∧
    ADMMEdit f g x0' z0' τ n gfirst (fun _ x z => (x, z)) = ADMM f g x0' z0' τ n gfirst ∧
    LADMMEdit f h A x0' w0 τ μ n (fun _ x => x) = LinearizedADMM f h A x0' w0 τ μ n ∧
    ADMML2Edit inv h A x0' w0 τ n gfirst (fun _ x => x) = ADMML2 inv h A x0' w0 τ n gfirst ∧
    DREdit f g x0 τ η n gfirst (fun _ x y => (x, y)) = DouglasRachford f g x0 τ η n gfirst ∧
    PDEdit f h A x0 w0 z tau mu θ n gfirst (fun _ x => x) = PrimalDual f h A x0 w0 z tau mu θ n gfirst ∧
    ConsensusEdit fs x0 τ n tol mx (fun _ x => x) = ConsensusADMM fs x0 τ n tol mx := by
  have h1 : (SplitState.edited fun _ (x z : E) => (x, z)) = fun _ s => s := rfl
  have h2 : (SplitOpState.edited (F := F) fun _ (x : E) => x) = fun _ s => s := rfl
  have h3 : (DRState.edited fun _ (x y : E) => (x, y)) = fun _ s => s := by
    funext i s
    obtain ⟨x, y, l⟩ := s
    cases x <;> rfl
  have h4 : (PDState.edited (F := F) fun _ (x : E) => x) = fun _ s => s := rfl
  refine ⟨rfl, rfl, ?_, ?_, ?_, ?_, ?_, ?_, rfl⟩
  · simp only [HQSEdit, h1, editLast_id]; rfl
  · simp only [ADMMEdit, h1, editLast_id]; rfl
  · simp only [LADMMEdit, h2, editLast_id]; rfl
  · simp only [ADMML2Edit, h2, editLast_id]; rfl
  · simp only [DREdit, h3, editLast_id]; rfl
  · simp only [PDEdit, h4, editLast_id]; rfl

/-! ## Solvers that take the edit into account -/

/-- C125: in `ProximalPoint` the edit becomes part of the iteration: the result is that of the operator whose `prox` is the one of `f` followed by the edit. -/
theorem C125_proximalpoint {f f' : ProxOp E} {e : E → E} (hp : ∀ x τ, f'.prox x τ = (f.prox x τ).map e) (hc : f'.call = f.call) (x0 : E) (τ : ℝ) (n : ℕ) (tol : Option ℝ) :
    (PPEdit f x0 τ n tol fun _ => e).map PPState.x = (ProximalPoint f' x0 τ n tol).map PPState.x := by
  unfold PPEdit ProximalPoint
  rcases forRange_sim (b1 := PPEdit.body f τ tol fun _ => e) (b2 := ProximalPoint.body f' τ tol) (R := fun s t => s.x = t.x ∧ s.pf = t.pf) (fun i s t hst => by
      obtain ⟨hx, hpf⟩ := hst
      simp only [PPEdit.body, ProximalPoint.body, hp, hc, hx, hpf]
      cases h1 : f.prox t.x τ with
      | error er => exact .inl ⟨er, rfl, rfl⟩
      | ok x =>
        cases tol with
        | none => exact .inr ⟨_, _, false, rfl, rfl, rfl, rfl⟩
        | some tl =>
          simp only [Except.map, Bind.bind, Except.bind]
          cases h2 : f.call (e x) with
          | error er => exact .inl ⟨er, rfl, rfl⟩
          | ok v =>
            cases h3 : pyRatio v.toReal t.pf with
            | error er => exact .inl ⟨er, by simp only [h3], by simp only [h3]⟩
            | ok r => exact .inr ⟨⟨e x, some v.toReal, s.log ++ [x]⟩, ⟨e x, some v.toReal, t.log ++ [e x]⟩, _, by simp only [h3]; rfl, by simp only [h3]; rfl, rfl, rfl⟩) n 0 ⟨x0, none, []⟩ ⟨x0, none, []⟩ ⟨rfl, rfl⟩ with ⟨er, e1, e2⟩ | ⟨s, t, e1, e2, e3, -⟩
  · rw [e1, e2]
  · rw [e1, e2]; simp only [Except.map, e3]

/-- C125: the same for the `x` of `HQS` with `gfirst=True`. -/
theorem C125_hqs_gfirst {f f' g : ProxOp E} {e : E → E} (hp : ∀ x τ, f'.prox x τ = (f.prox x τ).map e) (x0 z0 : Option E) (tau : StepSpec) (n : ℕ) :
    (HQSEdit f g x0 z0 tau n true fun _ x z => (e x, z)).map (fun s => (s.x, s.z)) = (HQS f' g x0 z0 tau n true).map fun s => (s.x, s.z) := by
  unfold HQSEdit HQS
  cases hi : x0z0Init x0 z0 with
  | error er => rfl
  | ok p =>
    obtain ⟨x, z⟩ := p
    simp only [Bind.bind, Except.bind]
    rcases forRange_sim (b1 := editLast (HQS.body f g tau true) (SplitState.edited fun _ x z => (e x, z))) (b2 := HQS.body f' g tau true)
        (R := fun s t => s.x = t.x ∧ s.z = t.z) (fun i s t hst => by
      obtain ⟨hx, hz⟩ := hst
      simp only [editLast, HQS.body, hp, hx]
      cases h0 : tau.at i with
      | error er => exact .inl ⟨er, rfl, rfl⟩
      | ok τ =>
        simp only [Bind.bind, Except.bind, if_true]
        cases h1 : g.prox t.x τ with
        | error er => exact .inl ⟨er, rfl, rfl⟩
        | ok z =>
          simp only []
          cases h2 : f.prox z τ with
          | error er => exact .inl ⟨er, rfl, rfl⟩
          | ok x => exact .inr ⟨_, _, false, rfl, rfl, rfl, rfl⟩) n 0 ⟨x, z, 0, []⟩ ⟨x, z, 0, []⟩ ⟨rfl, rfl⟩ with ⟨er, e1, e2⟩ | ⟨s, t, e1, e2, e3, e4⟩
    · rw [e1, e2]
    · rw [e1, e2]; simp only [Except.map, e3, e4]

/-! ## Solvers in which only the last edit is seen -/

/-- C125: in `ADMM` and `HQS` with `gfirst=False` the edits of `x` are lost: the result is that of the run without edits, with the last edit applied. -/
theorem C125_gfirst_false_lost (f g : ProxOp E) (x0 z0 : Option E) (τ : ℝ) (tau : StepSpec) (n : ℕ) (e : ℕ → E → E) :
    ADMMEdit f g x0 z0 τ (n + 1) false (fun i x z => (e i x, z)) = (ADMM f g x0 z0 τ (n + 1) false).map (fun s => ⟨e n s.x, s.z, s.u, s.log⟩) ∧
    HQSEdit f g x0 z0 tau (n + 1) false (fun i x z => (e i x, z)) = (HQS f g x0 z0 tau (n + 1) false).map fun s => ⟨e n s.x, s.z, s.u, s.log⟩ := by
  constructor
  · unfold ADMMEdit ADMM
    cases hi : x0z0Init x0 z0 with
    | error er => rfl
    | ok p =>
      simp only [Bind.bind, Except.bind]
      rw [editLast_lost (ed := SplitState.edited fun i x z => (e i x, z)) (fun i s r h => ?_) (fun i j s => rfl), Nat.zero_add]
      · rfl
      · simp only [ADMM.body, Bool.false_eq_true, if_false, Bind.bind, Except.bind, Pure.pure, Except.pure] at h
        split at h <;> [cases h; skip]
        split at h <;> [cases h; skip]
        cases h; rfl
  · unfold HQSEdit HQS
    cases hi : x0z0Init x0 z0 with
    | error er => rfl
    | ok p =>
      simp only [Bind.bind, Except.bind]
      rw [editLast_lost (ed := SplitState.edited fun i x z => (e i x, z)) (fun i s r h => ?_) (fun i j s => rfl), Nat.zero_add]
      · rfl
      · simp only [HQS.body, Bool.false_eq_true, if_false, Bind.bind, Except.bind, Pure.pure, Except.pure] at h
        split at h <;> [cases h; skip]
        split at h <;> [cases h; skip]
        split at h <;> [cases h; skip]
        cases h; rfl

/-- C125: in `DouglasRachfordSplitting` the edits of `x` are lost, in both orders. -/
theorem C125_dr_lost (f g : ProxOp E) (x0 : E) (τ η : ℝ) (n : ℕ) (gfirst : Bool) (e : ℕ → E → E) :
    DREdit f g x0 τ η (n + 1) gfirst (fun i x y => (e i x, y)) = (DouglasRachford f g x0 τ η (n + 1) gfirst).map fun r => (e n r.1, r.2.1, r.2.2) := by
  unfold DREdit DouglasRachford
  rw [editLast_lost (fun i s r h => ?_) (fun i j s => ?_), Nat.zero_add]
  · cases forRange (DR.body f g τ η gfirst) (n + 1) 0 ⟨none, x0, []⟩ with
    | error er => rfl
    | ok s =>
      obtain ⟨x, y, l⟩ := s
      cases x <;> rfl
  · cases gfirst <;> simp only [DR.body, Bool.false_eq_true, if_false, if_true, Bind.bind, Except.bind, Pure.pure, Except.pure] at h <;>
      (split at h <;> [cases h; skip]) <;> (split at h <;> [cases h; skip]) <;> cases h <;> rfl
  · obtain ⟨x, y, l⟩ := s
    cases x <;> rfl

/-- The edited body of `ProximalGradient` without a tolerance. -/
lemma pgEdit_body {f g : ProxOp E} {a : PGArgs} (ht : a.tol = none) (bt : Bool) (e : ℕ → E → E) :
    PGEdit.body f g a bt e = editLast (PG.body f g a bt) fun i s => ⟨e i s.x, s.y, s.t, s.tau, s.pfg, s.log⟩ := by
  funext i s
  simp only [PGEdit.body, editLast, PG.body, ht]
  cases a.epsg.at i with
  | error er => rfl
  | ok ep =>
    simp only [Bind.bind, Except.bind]
    cases PG.step f g a bt ep s <;> rfl

/-- C125: in `ProximalGradient` without acceleration, and without relaxation or with backtracking, the edits are lost. -/
theorem C125_proximalgradient_lost (f g : ProxOp E) (x0 : E) (a : PGArgs) (ht : a.tol = none) (ha : a.acceleration = .none) (h : a.eta = 1 ∨ a.tau = none ∨ a.backtracking = true)
    (n : ℕ) (hn : a.niter = n + 1) (e : ℕ → E → E) :
    PGEdit f g x0 a e = (ProximalGradient f g x0 a).map fun s => ⟨e n s.x, s.y, s.t, s.tau, s.pfg, s.log⟩ := by
  have key : ∀ bt, (a.eta = 1 ∨ bt = true) → ∀ s, forRange (PGEdit.body f g a bt e) a.niter 0 s =
      (forRange (PG.body f g a bt) a.niter 0 s).map fun s => ⟨e n s.x, s.y, s.t, s.tau, s.pfg, s.log⟩ := fun bt hbt s => by
    rw [pgEdit_body ht, hn, editLast_lost (fun i s r hr => ?_) (fun i j s => ?_), Nat.zero_add]
    · simp only [PG.body, ht, Bind.bind, Except.bind, Pure.pure, Except.pure] at hr
      split at hr <;> [cases hr; skip]
      split at hr <;> [cases hr; skip]
      cases hr; rfl
    · have hs : ∀ ep, PG.step f g a bt ep ⟨e j s.x, s.y, s.t, s.tau, s.pfg, s.log⟩ = PG.step f g a bt ep s := fun ep => by
        rcases hbt with h1 | h1
        · simp only [PG.step, h1, if_true]
        · simp only [PG.step, h1, if_true]
      simp only [PG.body, ht, hs, ha, momentum, zero_smul, add_zero]
  unfold PGEdit ProximalGradient
  cases a.epsg.printCheck a.niter with
  | error er => rfl
  | ok u =>
    have hno : a.acceleration ≠ .other := by rw [ha]; simp
    simp only [Bind.bind, Except.bind, if_neg hno]
    rcases h with h | h | h
    · cases htau : a.tau <;> exact key _ (.inl h) _
    · simp only [h]; exact key _ (.inr rfl) _
    · cases htau : a.tau with
      | none => exact key _ (.inr rfl) _
      | some τ => exact key _ (.inr h) _

/-- C125: the limit of such runs: a callback that projects on a set moves the limit of the unconstrained run onto the set. -/
theorem C125_proximalgradient_limit (f g : ProxOp E) (x0 : E) (a : PGArgs) (ht : a.tol = none) (ha : a.acceleration = .none) (h : a.eta = 1 ∨ a.tau = none ∨ a.backtracking = true)
    {e : E → E} (he : Continuous e) {R : ℕ → PGState E} (hR : ∀ n, ProximalGradient f g x0 { a with niter := n + 1 } = .ok (R n)) {c : E} (hc : Tendsto (fun n => (R n).x) atTop (𝓝 c)) :
    ∃ S : ℕ → PGState E, (∀ n, PGEdit f g x0 { a with niter := n + 1 } (fun _ => e) = .ok (S n)) ∧ Tendsto (fun n => (S n).x) atTop (𝓝 (e c)) :=
  ⟨fun n => ⟨e (R n).x, (R n).y, (R n).t, (R n).tau, (R n).pfg, (R n).log⟩,
    fun n => by rw [C125_proximalgradient_lost f g x0 { a with niter := n + 1 } ht ha h n rfl, hR]; rfl, (he.tendsto c).comp hc⟩

/-- C125: with relaxation and without backtracking the edits are used, whatever the acceleration: the result is the `n`-th iterate of the relaxed step followed by the edit. -/
theorem C125_relaxed (f g : ProxOp E) (x0 : E) (a : PGArgs) (ht : a.tol = none) (ha : a.acceleration ≠ .other) {τ ε : ℝ} (htau : a.tau = some τ) (hbt : a.backtracking = false)
    (heta : a.eta ≠ 1) (hε : ∀ i, a.epsg.at i = .ok ε) (hn : 0 < a.niter) {P : E → E} (hP : ∀ x, (do let gx ← f.grad x; g.prox (x - τ • gx) (ε * τ)) = .ok (P x)) (e : E → E) :
    ∃ s, PGEdit f g x0 a (fun _ => e) = .ok s ∧ s.x = (fun x => e (x + a.eta • (P x - x)))^[a.niter] x0 := by
  obtain ⟨T, T0, hT, hR, hrun⟩ := forRange_traj_nobreak (PGEdit.body f g a false fun _ => e) (fun s => s.tau = τ) (fun _ s s' => s'.x = e (s.x + a.eta • (P s.x - s.x)))
    (fun i s hs => by
      have hP' := hP s.x
      simp only [Bind.bind, Except.bind] at hP'
      cases hg : f.grad s.x with
      | error er => rw [hg] at hP'; cases hP'
      | ok gx =>
        rw [hg] at hP'
        have hP2 : g.prox (s.x - τ • gx) (ε * τ) = .ok (P s.x) := hP'
        have hb : PGEdit.body f g a false (fun _ => e) i s = .ok (⟨e (s.x + a.eta • (P s.x - s.x)), s.x + a.eta • (P s.x - s.x) + (momentum a.acceleration i s.t).1 • (s.x + a.eta • (P s.x - s.x) - s.x),
            (momentum a.acceleration i s.t).2, τ, s.pfg, s.log ++ [s.x + a.eta • (P s.x - s.x)]⟩, false) := by
          simp only [PGEdit.body, hε, PG.step, Bool.false_eq_true, if_false, if_neg heta, hg, hs, hP2, ht, Bind.bind, Except.bind, Pure.pure, Except.pure]
        exact ⟨_, hb, rfl, rfl⟩) ⟨x0, x0, 1, τ, none, []⟩ rfl
  have hp : a.epsg.printCheck a.niter = .ok () := by
    unfold StepSpec.printCheck
    split
    · simp only [hn.ne', if_false]
    · simp only [hn.ne', if_false]
    · rfl
  refine ⟨T a.niter, ?_, ?_⟩
  · unfold PGEdit
    simp only [hp, Bind.bind, Except.bind, if_neg ha, htau, hbt]
    exact hrun _
  · have : ∀ n, (T n).x = (fun x => e (x + a.eta • (P x - x)))^[n] x0 := fun n => by
      induction n with
      | zero => rw [T0]; rfl
      | succ n ih => rw [hR n, ih, Function.iterate_succ_apply']
    exact this _

/-- C125 fails: the same callback, adding `v` to the array, on the same problem (`f` half the squared norm, `g = 0`, step `1/2`, two iterations) is used in both iterations with a relaxation `η ≠ 1` (for
which an unedited run differs little from that with `η = 1` if `η` is close to `1`), and in the last one only with `η = 1`. -/
theorem C125_proximalgradient_refuted {f g : ProxOp E} (hf : ∀ x, f.grad x = .ok x) (hg : ∀ x, g.prox x (1 / 2) = .ok x) (x0 : E) {v : E} (hv : v ≠ 0) {η : ℝ} (hη : η ≠ 1) (h2 : η ≠ 2) :
    (∃ s, PGEdit f g x0 ⟨some (1 / 2), false, 1, .scalar 1, 2, 1, .none, 1, none⟩ (fun _ x => x + v) = .ok s ∧ s.x = (1 / 4 : ℝ) • x0 + v) ∧
    (∃ s, PGEdit f g x0 ⟨some (1 / 2), false, 1, .scalar 1, 2, 1, .none, η, none⟩ (fun _ x => x + v) = .ok s ∧ s.x = (1 - η / 2) ^ 2 • x0 + (1 - η / 2) • v + v) ∧ (1 - η / 2) • v ≠ 0 := by
  have h12 : ∀ x : E, x - (1 / 2 : ℝ) • x = (1 / 2 : ℝ) • x := fun x => by module
  refine ⟨⟨_, by
    simp only [PGEdit, StepSpec.printCheck, PGEdit.body, forRange, StepSpec.at, PG.step, hf, h12, one_mul, hg, momentum, Bind.bind, Except.bind, Pure.pure, Except.pure, if_true, if_false,
      Bool.false_eq_true, OfNat.ofNat_ne_zero, reduceCtorEq, zero_smul, add_zero]
    rfl, ?_⟩, ?_, ?_⟩
  · simp only [smul_smul]; norm_num
  · obtain ⟨s, h1, h3⟩ := C125_relaxed f g x0 ⟨some (1 / 2), false, 1, .scalar 1, 2, 1, .none, η, none⟩ rfl (by simp) (τ := 1 / 2) (ε := 1) rfl rfl hη (fun _ => rfl) (by norm_num)
      (P := fun x => (1 / 2 : ℝ) • x) (fun x => by simp only [hf, Bind.bind, Except.bind, h12, one_mul, hg]) (fun x => x + v)
    refine ⟨s, h1, ?_⟩
    rw [h3]
    simp only [Function.iterate_succ, Function.iterate_zero, Function.comp, id]
    module
  · refine smul_ne_zero ?_ hv
    intro h; exact h2 (by linarith)

/-- Instance: `f` half the squared norm and `g` the box without bounds, on vectors of length three; the callback adds one to every entry. -/
example {H C : Type} [NormedAddCommGroup H] [InnerProductSpace ℝ H] (ext : L2Ext (Vec (Fin 3)) H C) (st : L2State (Vec (Fin 3)) C) :
    (∃ s, PGEdit (L2.obj ext (l2Plain (F' := H) .nothing 1) st) (Box (fun _ : Fin 3 => none) (fun _ => none)) 0 ⟨some (1 / 2), false, 1, .scalar 1, 2, 1, .none, 1, none⟩
      (fun _ x => x + vmk fun _ => 1) = .ok s ∧ s.x = vmk fun _ => 1) ∧
    ∃ s, PGEdit (L2.obj ext (l2Plain (F' := H) .nothing 1) st) (Box (fun _ : Fin 3 => none) (fun _ => none)) 0 ⟨some (1 / 2), false, 1, .scalar 1, 2, 1, .none, 1 / 2, none⟩
      (fun _ x => x + vmk fun _ => 1) = .ok s ∧ s.x = vmk fun _ => 7 / 4 := by
  obtain ⟨⟨s, h1, h2⟩, ⟨t, h3, h4⟩, -⟩ := C125_proximalgradient_refuted (f := L2.obj ext (l2Plain (F' := H) .nothing 1) st) (g := Box (fun _ : Fin 3 => none) (fun _ => none))
    (fun x => by simp [L2.obj, ProxOp.grad, L2.grad, l2Plain]) (fun x => by simp [ProxOp.prox, Box, checkTau, boxProj, boxClip, maxLower, minUpper]) 0
    (v := vmk fun _ => 1) (fun h => by have := congrArg (fun v : Vec (Fin 3) => v 0) h; simp at this) (η := 1 / 2) (by norm_num) (by norm_num)
  refine ⟨⟨s, h1, by rw [h2]; simp⟩, t, h3, ?_⟩
  rw [h4]
  ext i
  rw [smul_zero, zero_add]
  show (1 - 1 / 2 / 2 : ℝ) * 1 + 1 = 7 / 4
  norm_num

/-! ## Callbacks that keep the arrays -/

omit [NormedAddCommGroup E] [InnerProductSpace ℝ E] in
/-- C125: with an operator that leaves its argument alone, the arrays a callback has kept are the iterates. -/
theorem C125_kept (f : MutOp SF E) (hf : ∀ s x τ, (f.prox s x τ).2.2 = x) (sf : SF) (x0 : E) (τ : ℝ) (n : ℕ) :
    PPKept f sf x0 τ n = (PPMut f sf x0 τ n none).map fun r => (r.1, r.2.x, r.2.log) := by
  have h3 : ∀ s x (r : SF × E × E), f.proxPy s x τ = .ok r → r.2.2 = x := fun s x r hr => by
    simp only [MutOp.proxPy] at hr
    cases hp : (f.prox s x τ).2.1 with
    | error er => rw [hp] at hr; cases hr
    | ok p => rw [hp] at hr; cases hr; exact hf s x τ
  unfold PPKept PPMut
  rcases forRange_sim (b1 := PPKept.body f τ) (b2 := PPMut.body f τ none) (R := fun s t => s.1 = t.1 ∧ s.2.1 = t.2.x ∧ s.2.2 = t.2.log ∧ (t.2.log = [] ∨ t.2.log = t.2.log.dropLast ++ [t.2.x]))
      (fun i s t hst => by
    obtain ⟨e1, e2, e3, e4⟩ := hst
    simp only [PPKept.body, PPMut.body, e1, e2, e3]
    cases hr : f.proxPy t.1 t.2.x τ with
    | error er => exact .inl ⟨er, rfl, rfl⟩
    | ok r =>
      refine .inr ⟨_, _, false, rfl, rfl, rfl, rfl, ?_, .inr (by simp)⟩
      simp only [h3 _ _ _ hr]
      rcases e4 with e4 | e4
      · simp [e4]
      · split_ifs with h0
        · rw [h0]
        · rw [← e4]) n 0 (sf, x0, []) (sf, ⟨x0, none, []⟩) ⟨rfl, rfl, rfl, .inl rfl⟩ with ⟨er, e1, e2⟩ | ⟨s, t, e1, e2, e3, e4, e5, -⟩
  · rw [e1, e2]; rfl
  · rw [e1, e2]
    obtain ⟨s1, s2, s3⟩ := s
    simp only [Except.map] at *
    subst e3 e4 e5
    rfl

/-- C125 fails with `L2(q=q)`, which writes into its argument: of the arrays a callback of `ProximalPoint` has kept, all but the last have been changed by `-tau q` since. -/
theorem C125_kept_refuted {H C : Type} [NormedAddCommGroup H] [InnerProductSpace ℝ H] (ext : L2Ext E H C) {s : ℝ} (hs : 0 ≤ s) {q : E} (hq : q ≠ 0) (st : L2State E C) (x0 : E) {τ : ℝ} (hτ : 0 < τ) (n : ℕ) :
    ∃ X : ℕ → E, X 0 = x0 ∧ (∀ k, X (k + 1) = (1 / (1 + τ * s)) • (X k - τ • q)) ∧
      (∃ r, PPMut (L2.toMut ext (l2Lin (H := H) s q)) st x0 τ (n + 1) none = .ok r ∧ r.2.x = X (n + 1) ∧ r.2.log = (List.range (n + 1)).map fun k => X (k + 1)) ∧
      ∃ r, PPKept (L2.toMut ext (l2Lin (H := H) s q)) st x0 τ (n + 1) = .ok r ∧ r.2.1 = X (n + 1) ∧ r.2.2 = ((List.range n).map fun k => X (k + 1) - τ • q) ++ [X (n + 1)] ∧
        ∀ k, X (k + 1) - τ • q ≠ X (k + 1) := by
  let X : ℕ → E := fun n => (fun x => (1 / (1 + τ * s)) • (x - τ • q))^[n] x0
  have hX : ∀ k, X (k + 1) = (1 / (1 + τ * s)) • (X k - τ • q) := fun k => Function.iterate_succ_apply' _ _ _
  refine ⟨X, rfl, hX, ?_, ?_⟩
  · have : ∀ n, ∃ r, forRange (PPMut.body (L2.toMut ext (l2Lin (H := H) s q)) τ none) n 0 (st, ⟨x0, none, []⟩) = .ok r ∧ r.2.x = X n ∧ r.2.log = (List.range n).map fun k => X (k + 1) := fun n => by
      obtain ⟨T, T0, -, hR, hrun⟩ := forRange_traj_nobreak (PPMut.body (L2.toMut ext (l2Lin (H := H) s q)) τ none) (fun _ => True)
        (fun _ s' t => t.2.x = (1 / (1 + τ * s)) • (s'.2.x - τ • q) ∧ t.2.log = s'.2.log ++ [t.2.x])
        (fun i s' _ => ⟨({ s'.1 with count := s'.1.count + 1 }, ⟨(1 / (1 + τ * s)) • (s'.2.x - τ • q), s'.2.pf, s'.2.log ++ [(1 / (1 + τ * s)) • (s'.2.x - τ • q)]⟩), by simp only [PPMut.body, l2Lin_proxPy ext hs q _ _ hτ, Bind.bind, Except.bind, Pure.pure, Except.pure], trivial, rfl, rfl⟩) (st, ⟨x0, none, []⟩) trivial
      have h1 : ∀ n, (T n).2.x = X n := fun n => by
        induction n with
        | zero => rw [T0]; rfl
        | succ n ih => rw [(hR n).1, ih, hX]
      have h2 : ∀ n, (T n).2.log = (List.range n).map fun k => X (k + 1) := fun n => by
        induction n with
        | zero => rw [T0]; rfl
        | succ n ih => rw [(hR n).2, ih, h1, List.range_succ, List.map_append]; rfl
      exact ⟨T n, hrun n, h1 n, h2 n⟩
    exact this _
  · obtain ⟨T, T0, -, hR, hrun⟩ := forRange_traj_nobreak (PPKept.body (L2.toMut ext (l2Lin (H := H) s q)) τ) (fun _ => True)
      (fun _ s' t => t.2.1 = (1 / (1 + τ * s)) • (s'.2.1 - τ • q) ∧ t.2.2 = (if s'.2.2 = [] then [] else s'.2.2.dropLast ++ [s'.2.1 - τ • q]) ++ [t.2.1])
      (fun i s' _ => ⟨({ s'.1 with count := s'.1.count + 1 }, (1 / (1 + τ * s)) • (s'.2.1 - τ • q), (if s'.2.2 = [] then [] else s'.2.2.dropLast ++ [s'.2.1 - τ • q]) ++ [(1 / (1 + τ * s)) • (s'.2.1 - τ • q)]), by simp only [PPKept.body, l2Lin_proxPy ext hs q _ _ hτ, Bind.bind, Except.bind, Pure.pure, Except.pure], trivial, rfl, rfl⟩) (st, x0, []) trivial
    have h1 : ∀ n, (T n).2.1 = X n := fun n => by
      induction n with
      | zero => rw [T0]; rfl
      | succ n ih => rw [(hR n).1, ih, hX]
    have h2 : ∀ n, (T (n + 1)).2.2 = ((List.range n).map fun k => X (k + 1) - τ • q) ++ [X (n + 1)] := fun n => by
      induction n with
      | zero => rw [(hR 0).2, T0, h1]; rfl
      | succ n ih =>
        rw [(hR (n + 1)).2, ih, h1, h1, if_neg (by simp), List.dropLast_concat, List.range_succ, List.map_append]
        rfl
    refine ⟨T (n + 1), hrun _, h1 _, h2 n, fun k hk => ?_⟩
    have : τ • q = 0 := by rwa [sub_eq_self] at hk
    rcases smul_eq_zero.1 this with h | h
    · exact hτ.ne' h
    · exact hq h

/-! ## The recurrences with a writing callback -/

lemma editLast_succ {S : Type} {body : ℕ → S → Py (S × Bool)} (hb : ∀ i s s' b, body i s = .ok (s', b) → b = false) (ed : ℕ → S → S) (n : ℕ) (s : S) :
    forRange (editLast body ed) (n + 1) 0 s = (forRange (editLast body ed) n 0 s).bind fun r => (body n r).map fun q => ed n q.1 := by
  have hb' : ∀ i s s' b, editLast body ed i s = .ok (s', b) → b = false := by
    intro i s s' b h
    unfold editLast at h
    cases hq : body i s with
    | error e => rw [hq] at h; cases h
    | ok q => rw [hq] at h; cases h; exact hb i s q.1 q.2 hq
  rw [forRange_add hb' 1 n 0 s, Nat.zero_add]
  congr 1
  funext r
  simp only [forRange, editLast]
  cases body n r with
  | error e => rfl
  | ok q => obtain ⟨q1, q2⟩ := q; cases q2 <;> rfl

/-- C125: `ADMM` whose callback writes into `x` and `z`: one more iteration takes the edited `x` (`gfirst=True`) or the edited `z` (`gfirst=False`) and the multiplier of the unedited points. -/
theorem C125_admm_steps (f g : ProxOp E) (x0 z0 : Option E) (τ : ℝ) (n : ℕ) (edit : ℕ → E → E → E × E) :
    (ADMMEdit f g x0 z0 τ (n + 1) true edit = do
      let s ← ADMMEdit f g x0 z0 τ n true edit
      let z ← g.prox (s.x + s.u) τ
      let x ← f.prox (z - s.u) τ
      pure ⟨(edit n x z).1, (edit n x z).2, s.u + x - z, s.log ++ [(x, z)]⟩) ∧
    (ADMMEdit f g x0 z0 τ (n + 1) false edit = do
      let s ← ADMMEdit f g x0 z0 τ n false edit
      let x ← f.prox (s.z - s.u) τ
      let z ← g.prox (x + s.u) τ
      pure ⟨(edit n x z).1, (edit n x z).2, s.u + x - z, s.log ++ [(x, z)]⟩) := by
  have hb : ∀ gfirst i s s' b, ADMM.body f g τ gfirst i s = .ok (s', b) → b = false := by
    intro gfirst i s s' b h
    cases gfirst <;> simp only [ADMM.body, Bool.false_eq_true, if_false, if_true, Bind.bind, Except.bind, Pure.pure, Except.pure] at h <;>
      (split at h <;> [cases h; skip]) <;> (split at h <;> [cases h; skip]) <;> cases h <;> rfl
  constructor
  · unfold ADMMEdit
    cases x0z0Init x0 z0 with
    | error e => rfl
    | ok p =>
      simp only [py_ok_bind]
      rw [editLast_succ (hb true)]
      simp only [Bind.bind]
      congr 1
      funext r
      simp only [ADMM.body, if_true, Bind.bind]
      cases g.prox (r.x + r.u) τ with
      | error e => rfl
      | ok z =>
        simp only [Except.bind]
        cases f.prox (z - r.u) τ <;> rfl
  · unfold ADMMEdit
    cases x0z0Init x0 z0 with
    | error e => rfl
    | ok p =>
      simp only [py_ok_bind]
      rw [editLast_succ (hb false)]
      simp only [Bind.bind]
      congr 1
      funext r
      simp only [ADMM.body, Bool.false_eq_true, if_false, Bind.bind]
      cases f.prox (r.z - r.u) τ with
      | error e => rfl
      | ok x =>
        simp only [Except.bind]
        cases g.prox (x + r.u) τ <;> rfl

/-- C125: `HQS` whose callback writes into `x` and `z`: one more iteration takes the edited `x` (`gfirst=True`) or the edited `z` (`gfirst=False`). -/
theorem C125_hqs_steps (f g : ProxOp E) (x0 z0 : Option E) {tau : StepSpec} {τ : ℕ → ℝ} (ht : ∀ i, tau.at i = .ok (τ i)) (n : ℕ) (edit : ℕ → E → E → E × E) :
    ((HQSEdit f g x0 z0 tau (n + 1) true edit).map (fun s => (s.x, s.z)) = do
      let s ← (HQSEdit f g x0 z0 tau n true edit).map fun s => (s.x, s.z)
      let z ← g.prox s.1 (τ n)
      let x ← f.prox z (τ n)
      pure (edit n x z)) ∧
    ((HQSEdit f g x0 z0 tau (n + 1) false edit).map (fun s => (s.x, s.z)) = do
      let s ← (HQSEdit f g x0 z0 tau n false edit).map fun s => (s.x, s.z)
      let x ← f.prox s.2 (τ n)
      let z ← g.prox x (τ n)
      pure (edit n x z)) := by
  have hb : ∀ gfirst i s s' b, HQS.body f g tau gfirst i s = .ok (s', b) → b = false := by
    intro gfirst i s s' b h
    cases gfirst <;> simp only [HQS.body, ht, Bool.false_eq_true, if_false, if_true, Bind.bind, Except.bind, Pure.pure, Except.pure] at h <;>
      (split at h <;> [cases h; skip]) <;> (split at h <;> [cases h; skip]) <;> cases h <;> rfl
  constructor
  · unfold HQSEdit
    cases x0z0Init x0 z0 with
    | error e => rfl
    | ok p =>
      simp only [py_ok_bind]
      rw [editLast_succ (hb true)]
      cases forRange (editLast (HQS.body f g tau true) (SplitState.edited edit)) n 0 ⟨p.1, p.2, 0, []⟩ with
      | error e => rfl
      | ok r =>
        simp only [Except.bind, Except.map, HQS.body, ht, py_ok_bind, if_true, Bind.bind]
        cases g.prox r.x (τ n) with
        | error e => rfl
        | ok z =>
          simp only []
          cases f.prox z (τ n) <;> rfl
  · unfold HQSEdit
    cases x0z0Init x0 z0 with
    | error e => rfl
    | ok p =>
      simp only [py_ok_bind]
      rw [editLast_succ (hb false)]
      cases forRange (editLast (HQS.body f g tau false) (SplitState.edited edit)) n 0 ⟨p.1, p.2, 0, []⟩ with
      | error e => rfl
      | ok r =>
        simp only [Except.bind, Except.map, HQS.body, ht, py_ok_bind, Bool.false_eq_true, if_false, Bind.bind]
        cases f.prox r.z (τ n) with
        | error e => rfl
        | ok x =>
          simp only []
          cases g.prox x (τ n) <;> rfl

/-- C125: `LinearizedADMM` whose callback writes into `x`: the next iteration moves from the edited `x`, but with the residual `A x - z` of the unedited one. -/
theorem C125_linearizedadmm_steps (f : ProxOp E) (g : ProxOp F) (A : LinOp E F) (x0 : Option E) (z0 : Option F) {τ : ℝ} (hτ : τ ≠ 0) (μ : ℝ) (n : ℕ) (edit : ℕ → E → E) :
    LADMMEdit f g A x0 z0 τ μ (n + 1) edit = (do
      let s ← LADMMEdit f g A x0 z0 τ μ n edit
      let x ← f.prox (s.x - (μ / τ) • A.rmatvec (s.Ax - s.z + s.u)) μ
      let z ← g.prox (A.matvec x + s.u) τ
      pure ⟨edit n x, z, s.u + A.matvec x - z, A.matvec x, s.log ++ [x]⟩) := by
  have hb : ∀ i s s' b, LinearizedADMM.body f g A τ μ i s = .ok (s', b) → b = false := by
    intro i s s' b h
    simp only [LinearizedADMM.body, if_neg hτ, Bind.bind, Except.bind, Pure.pure, Except.pure] at h
    (split at h <;> [cases h; skip]) <;> (split at h <;> [cases h; skip]) <;> cases h <;> rfl
  unfold LADMMEdit
  cases x0z0InitOp A x0 z0 with
  | error e => rfl
  | ok p =>
    simp only [py_ok_bind]
    rw [editLast_succ hb]
    simp only [Bind.bind]
    congr 1
    funext r
    simp only [LinearizedADMM.body, if_neg hτ, Bind.bind]
    cases f.prox (r.x - (μ / τ) • A.rmatvec (r.Ax - r.z + r.u)) μ with
    | error e => rfl
    | ok x =>
      simp only [Except.bind]
      cases g.prox (A.matvec x + r.u) τ <;> rfl

/-- C125: `ADMML2` whose callback writes into `x`: with `gfirst=True` the next iteration applies `A` to the edited `x`; with `gfirst=False` the edited `x` is only the starting point of the inner
solver. -/
theorem C125_admml2_steps (inv : E → F → ℝ → E) (g : ProxOp F) (A : LinOp E F) (x0 : Option E) (z0 : Option F) {τ : ℝ} (hτ : 0 < τ) (n : ℕ) (edit : ℕ → E → E) :
    (ADMML2Edit inv g A x0 z0 τ (n + 1) true edit = do
      let s ← ADMML2Edit inv g A x0 z0 τ n true edit
      let z ← g.prox (A.matvec s.x + s.u) τ
      let x := inv s.x (z - s.u) (1 / √τ)
      pure ⟨edit n x, z, s.u + A.matvec s.x - z, A.matvec s.x, s.log ++ [x]⟩) ∧
    (ADMML2Edit inv g A x0 z0 τ (n + 1) false edit = do
      let s ← ADMML2Edit inv g A x0 z0 τ n false edit
      let x := inv s.x (s.z - s.u) (1 / √τ)
      let z ← g.prox (A.matvec x + s.u) τ
      pure ⟨edit n x, z, s.u + A.matvec x - z, A.matvec x, s.log ++ [x]⟩) := by
  have hb : ∀ gfirst i s s' b, ADMML2.body inv g A τ gfirst i s = .ok (s', b) → b = false := by
    intro gfirst i s s' b h
    cases gfirst <;> simp only [ADMML2.body, Bool.false_eq_true, if_false, if_true, Bind.bind, Except.bind, Pure.pure, Except.pure] at h <;>
      (split at h <;> [cases h; skip]) <;> cases h <;> rfl
  constructor
  · unfold ADMML2Edit
    cases x0z0InitOp A x0 z0 with
    | error e => rfl
    | ok p =>
      simp only [py_ok_bind, if_neg (not_lt.2 hτ.le), if_neg hτ.ne']
      rw [editLast_succ (hb true)]
      simp only [Bind.bind]
      congr 1
      funext r
      simp only [ADMML2.body, if_true, Bind.bind]
      cases g.prox (A.matvec r.x + r.u) τ <;> rfl
  · unfold ADMML2Edit
    cases x0z0InitOp A x0 z0 with
    | error e => rfl
    | ok p =>
      simp only [py_ok_bind, if_neg (not_lt.2 hτ.le), if_neg hτ.ne']
      rw [editLast_succ (hb false)]
      simp only [Bind.bind]
      congr 1
      funext r
      simp only [ADMML2.body, Bool.false_eq_true, if_false, Bind.bind]
      cases g.prox (A.matvec (inv r.x (r.z - r.u) (1 / √τ)) + r.u) τ <;> rfl

/-- C125: `PrimalDual` whose callback writes into `x`: the next iteration moves from the edited `x`, but with the extrapolated point of the unedited one. -/
theorem C125_primaldual_steps (f : ProxOp E) (g : ProxOp F) (A : LinOp E F) (x0 : E) (y0 : Option F) (z : Option E) {tau mu : StepSpec} {τ μ : ℕ → ℝ} (ht : ∀ i, tau.atStrict i = .ok (τ i))
    (hm : ∀ i, mu.atStrict i = .ok (μ i)) (θ : ℝ) (n : ℕ) (edit : ℕ → E → E) :
    (PDEdit f g A x0 y0 z tau mu θ (n + 1) true edit = do
      let s ← PDEdit f g A x0 y0 z tau mu θ n true edit
      let y ← g.proxdual (s.y + μ n • A.matvec s.xhat) (μ n)
      let x ← f.prox (s.x - τ n • pdATy A z y) (τ n)
      pure ⟨edit n x, y, x + θ • (x - s.x), s.log ++ [(x, y)]⟩) ∧
    (PDEdit f g A x0 y0 z tau mu θ (n + 1) false edit = do
      let s ← PDEdit f g A x0 y0 z tau mu θ n false edit
      let x ← f.prox (s.x - τ n • pdATy A z s.y) (τ n)
      let xhat := x + θ • (x - s.x)
      let y ← g.proxdual (s.y + μ n • A.matvec xhat) (μ n)
      pure ⟨edit n x, y, xhat, s.log ++ [(x, y)]⟩) := by
  have hb : ∀ gfirst i s s' b, PrimalDual.body f g A z tau mu θ gfirst i s = .ok (s', b) → b = false := by
    intro gfirst i s s' b h
    cases gfirst <;> simp only [PrimalDual.body, ht, hm, py_ok_bind, Bool.false_eq_true, if_false, if_true, Bind.bind, Except.bind, Pure.pure, Except.pure] at h <;>
      (split at h <;> [cases h; skip]) <;> (split at h <;> [cases h; skip]) <;> cases h <;> rfl
  constructor
  · unfold PDEdit
    rw [editLast_succ (hb true)]
    simp only [Bind.bind]
    congr 1
    funext r
    simp only [PrimalDual.body, ht, hm, py_ok_bind, if_true]
    cases g.proxdual (r.y + μ n • A.matvec r.xhat) (μ n) with
    | error e => rfl
    | ok y =>
      simp only [py_ok_bind]
      simp only [Bind.bind, Except.bind]
      cases f.prox (r.x - τ n • pdATy A z y) (τ n) <;> rfl
  · unfold PDEdit
    rw [editLast_succ (hb false)]
    simp only [Bind.bind]
    congr 1
    funext r
    simp only [PrimalDual.body, ht, hm, py_ok_bind, Bool.false_eq_true, if_false]
    cases f.prox (r.x - τ n • pdATy A z r.y) (τ n) with
    | error e => rfl
    | ok x =>
      simp only [py_ok_bind]
      simp only [Bind.bind, Except.bind]
      cases g.proxdual (r.y + μ n • A.matvec (x + θ • (x - r.x))) (μ n) <;> rfl

/-- C125: `DouglasRachfordSplitting` with `callbacky=True`: writing `e` into `y` iterates the Douglas-Rachford map followed by `e`. -/
theorem C125_dr_y {f g : ProxOp E} {τ η : ℝ} {P Q : E → E} (hf : ∀ x, f.prox x τ = .ok (P x)) (hg : ∀ x, g.prox x τ = .ok (Q x)) (x0 : E) (n : ℕ) (e : E → E) :
    (∃ l, DREdit f g x0 τ η (n + 1) false (fun _ x y => (x, e y)) =
      .ok (P ((fun y => e (y + η • (Q ((2 : ℝ) • P y - y) - P y)))^[n] x0), (fun y => e (y + η • (Q ((2 : ℝ) • P y - y) - P y)))^[n + 1] x0, l)) ∧
    (∃ l, DREdit f g x0 τ η (n + 1) true (fun _ x y => (x, e y)) =
      .ok (Q ((fun y => e (y + η • (P ((2 : ℝ) • Q y - y) - Q y)))^[n] x0), (fun y => e (y + η • (P ((2 : ℝ) • Q y - y) - Q y)))^[n + 1] x0, l)) := by
  have hb : ∀ gfirst i s s' b, DR.body f g τ η gfirst i s = .ok (s', b) → b = false := by
    intro gfirst i s s' b h
    cases gfirst <;> simp only [DR.body, hf, hg, py_ok_bind, Bool.false_eq_true, if_false, if_true, Pure.pure, Except.pure] at h <;> cases h <;> rfl
  constructor
  · have key : ∀ n, ∃ l ox, forRange (editLast (DR.body f g τ η false) (DRState.edited fun _ x y => (x, e y))) n 0 ⟨none, x0, []⟩ =
        .ok ⟨ox, (fun y => e (y + η • (Q ((2 : ℝ) • P y - y) - P y)))^[n] x0, l⟩ := by
      intro n
      induction n with
      | zero => exact ⟨[], none, rfl⟩
      | succ n ih =>
        obtain ⟨l, ox, h⟩ := ih
        rw [editLast_succ (hb false), h]
        simp only [Except.bind, DR.body, hf, hg, py_ok_bind, Bool.false_eq_true, if_false, Pure.pure, Except.pure, Except.map, DRState.edited, Function.iterate_succ_apply']
        exact ⟨_, _, rfl⟩
    obtain ⟨l, ox, h⟩ := key n
    unfold DREdit
    rw [editLast_succ (hb false), h]
    simp only [Except.bind, DR.body, hf, hg, py_ok_bind, Bool.false_eq_true, if_false, Pure.pure, Except.pure, Except.map, DRState.edited, Function.iterate_succ_apply']
    exact ⟨_, rfl⟩
  · have key : ∀ n, ∃ l ox, forRange (editLast (DR.body f g τ η true) (DRState.edited fun _ x y => (x, e y))) n 0 ⟨none, x0, []⟩ =
        .ok ⟨ox, (fun y => e (y + η • (P ((2 : ℝ) • Q y - y) - Q y)))^[n] x0, l⟩ := by
      intro n
      induction n with
      | zero => exact ⟨[], none, rfl⟩
      | succ n ih =>
        obtain ⟨l, ox, h⟩ := ih
        rw [editLast_succ (hb true), h]
        simp only [Except.bind, DR.body, hf, hg, py_ok_bind, if_true, Pure.pure, Except.pure, Except.map, DRState.edited, Function.iterate_succ_apply']
        exact ⟨_, _, rfl⟩
    obtain ⟨l, ox, h⟩ := key n
    unfold DREdit
    rw [editLast_succ (hb true), h]
    simp only [Except.bind, DR.body, hf, hg, py_ok_bind, if_true, Pure.pure, Except.pure, Except.map, DRState.edited, Function.iterate_succ_apply']
    exact ⟨_, rfl⟩

/-- C125: `ConsensusADMM` whose callback writes into the average, run without stopping: the next iteration starts from the edited average, while the multipliers are those of the unedited one. -/
theorem C125_consensus_steps {m : ℕ} (hm : m ≠ 0) (fs : Fin m → ProxOp E) (x0 : E) (τ : ℝ) (n : ℕ) {tol : ℝ} {mx : E → ℝ} (hx : ∀ x, tol ≤ mx x) (edit : ℕ → E → E) :
    (ConsensusEdit fs x0 τ (n + 1) tol mx edit).map (fun s => (s.xbar, s.x, s.y, s.log)) = (do
      let s ← ConsensusEdit fs x0 τ n tol mx edit
      let x ← mapPy fun j => (fs j).prox (s.xbar - s.y j) τ
      let xbar := (1 / (m : ℝ)) • ∑ j, x j
      pure (edit n xbar, x, fun j => s.y j + x j - xbar, s.log ++ [xbar])) := by
  have hbody : ∀ i s, ConsensusEdit.body fs τ tol mx edit i s = (mapPy fun j => (fs j).prox (s.xbar - s.y j) τ).map fun x =>
      ((⟨edit i ((1 / (m : ℝ)) • ∑ j, x j), edit i ((1 / (m : ℝ)) • ∑ j, x j), x, fun j => s.y j + x j - (1 / (m : ℝ)) • ∑ j, x j, s.log ++ [(1 / (m : ℝ)) • ∑ j, x j]⟩ : ConsState E m), false) := by
    intro i s
    unfold ConsensusEdit.body
    cases (mapPy fun j => (fs j).prox (s.xbar - s.y j) τ) with
    | error e => rfl
    | ok x =>
      simp only [py_ok_bind, if_neg hm, Except.map]
      rw [if_neg (not_lt.2 (hx _))]
      rfl
  have hb : ∀ i s s' b, ConsensusEdit.body fs τ tol mx edit i s = .ok (s', b) → b = false := by
    intro i s s' b h
    rw [hbody] at h
    cases hq : (mapPy fun j => (fs j).prox (s.xbar - s.y j) τ) with
    | error e => rw [hq] at h; cases h
    | ok q => rw [hq] at h; cases h; rfl
  unfold ConsensusEdit
  rw [forRange_add hb 1 n 0, Nat.zero_add]
  cases forRange (ConsensusEdit.body fs τ tol mx edit) n 0 ⟨x0, x0, fun _ => x0, fun _ => 0, []⟩ with
  | error e => rfl
  | ok r =>
    simp only [Except.bind, forRange, py_ok_bind, hbody]
    cases (mapPy fun j => (fs j).prox (r.xbar - r.y j) τ) <;> rfl

/-- `C125_consensus_steps`: the test never holds with `tol=0`. -/
example : ∀ x : ℝ, (0 : ℝ) ≤ |x| := abs_nonneg

/-- `C125_dr_y` for `f = g = x²/2` with step one and a callback that clips `y` at zero. -/
example : ∃ l, DREdit (⟨fun x => .ok (.num (x ^ 2 / 2)), some fun x τ => .ok (x / (1 + τ)), none, none, true, 1⟩ : ProxOp ℝ)
    ⟨fun x => .ok (.num (x ^ 2 / 2)), some fun x τ => .ok (x / (1 + τ)), none, none, true, 1⟩ (-4) 1 1 (1 + 1) false (fun _ x y => (x, max y 0)) = .ok (0, 0, l) := by
  obtain ⟨l, h⟩ := (C125_dr_y (E := ℝ) (τ := 1) (η := 1) (P := fun x => x / (1 + 1)) (Q := fun x => x / (1 + 1)) (f := ⟨fun x => .ok (.num (x ^ 2 / 2)), some fun x τ => .ok (x / (1 + τ)), none, none, true, 1⟩)
    (g := ⟨fun x => .ok (.num (x ^ 2 / 2)), some fun x τ => .ok (x / (1 + τ)), none, none, true, 1⟩) (fun _ => rfl) (fun _ => rfl) (-4) 1 fun y => max y 0).1
  refine ⟨l, ?_⟩
  rw [h]
  norm_num

end Verif
