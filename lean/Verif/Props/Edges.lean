import Verif.Model.Show
import Verif.Props.Returns
import Verif.Props.Special2
import Verif.Props.PnP
import Verif.Props.Segment
import Verif.Props.Stack
import Verif.Props.L2

/-! # Boundary cases: printed lines, short arrays of steps, exceptions of blocks, empty stacks, `niter` as a function, infinite entries -/

open scoped RealInnerProductSpace

namespace Verif

variable {E F : Type} [NormedAddCommGroup E] [InnerProductSpace ℝ E] [NormedAddCommGroup F] [InnerProductSpace ℝ F] {C : Type}

/-! ## C76 -/

/-- C76: which passes print a line, and that `iiter % (niter // 10)` is evaluated only where `niter // 10` is not zero: the first ten, the last nine, and in between the multiples of
a tenth of the limit. -/
theorem C76_lines {niter i : ℕ} (hi : i < niter) :
    (i < 10 ∨ niter < i + 10 → printed niter i = true) ∧ (10 ≤ i → i + 10 ≤ niter → 0 < niter / 10 ∧ (printed niter i = true ↔ niter / 10 ∣ i)) := by
  refine ⟨fun h => ?_, fun h1 h2 => ⟨by omega, ?_⟩⟩
  · unfold printed
    rcases h with h | h
    · simp [h]
    · have : niter - i < 10 := by omega
      simp [this]
  · have h3 : ¬ i < 10 := by omega
    have h4 : ¬ niter - i < 10 := by omega
    simp [printed, h3, h4, Nat.dvd_iff_mod_eq_zero]

/-! ## C112, C50 -/

/-- C112: `PrimalDual` with arrays of steps returns iff both arrays have a positive entry for every iteration; arrays shorter than the number of iterations raise. -/
theorem C112_primal_dual_arrays {f : ProxOp E} {g : ProxOp F} (hf : Guarded f) (hg : Guarded g) (A : LinOp E F) (x0 : E) (y0 : Option F) (z : Option E) (ts us : List ℝ) (θ : ℝ) (n : ℕ)
    (gfirst : Bool) : Returns (PrimalDual f g A x0 y0 z (.arr ts) (.arr us) θ n gfirst) ↔ n ≤ ts.length ∧ n ≤ us.length ∧ (∀ t ∈ ts.take n, 0 < t) ∧ ∀ u ∈ us.take n, 0 < u := by
  have key : ∀ l : List ℝ, (∀ i < n, ∃ t, (StepSpec.arr l).atStrict i = .ok t ∧ 0 < t) ↔ n ≤ l.length ∧ ∀ t ∈ l.take n, 0 < t := fun l => by
    constructor
    · intro h
      have hlen : n ≤ l.length := by
        by_contra hc
        push Not at hc
        obtain ⟨t, ht, -⟩ := h l.length hc
        simp [StepSpec.atStrict] at ht
      refine ⟨hlen, fun t ht => ?_⟩
      obtain ⟨i, hi, rfl⟩ := List.mem_iff_getElem.1 ht
      rw [List.length_take] at hi
      obtain ⟨t, h1, h2⟩ := h i (by omega)
      have hil : i < l.length := by omega
      simp only [StepSpec.atStrict, List.getElem?_eq_getElem hil, Except.ok.injEq] at h1
      rw [List.getElem_take, h1]
      exact h2
    · rintro ⟨h1, h2⟩ i hi
      have hil : i < l.length := by omega
      refine ⟨l[i], by simp [StepSpec.atStrict, List.getElem?_eq_getElem hil], h2 _ ?_⟩
      rw [List.mem_iff_getElem]
      exact ⟨i, by rw [List.length_take]; omega, List.getElem_take⟩
  rw [C112_primal_dual hf hg, forall₂_and, key ts, key us]
  tauto

/-! ## C35, C17 -/

theorem l2_after_count (ext : L2Ext E F C) (a : L2Args E F) : ∀ (calls : List (E × ℝ)) (s : L2State E C), (L2.after ext a s calls).count = s.count + calls.length
  | [], s => rfl
  | c :: calls, s => by
    have h1 : (L2.prox ext a s c.1 c.2).1.count = s.count + 1 := by
      unfold L2.prox
      dsimp only
      by_cases hτ : c.2 ≤ 0
      · rw [if_pos hτ]
      · rw [if_neg hτ]
        unfold L2.proxBody
        obtain ⟨data, q, σ, α, qgrad, niter, warm, solver, ds⟩ := a
        cases data <;> dsimp only
        split_ifs <;> (try rfl) <;> (split <;> rfl)
    have h2 := l2_after_count ext a calls (L2.prox ext a s c.1 c.2).1
    rw [L2.after, List.foldl_cons, ← L2.after, h2, h1, List.length_cons]
    omega

/-- C35: when `niter` is a function, the `k`-th call of `L2.prox` runs the inner solver for `niter(k)` iterations: after `k - 1` calls, whatever they were, the call behaves as
with the constant `niter(k)`, and the solver gets that number. -/
theorem C35_l2_niter (ext : L2Ext E F C) (a : L2Args E F) (f : ℕ → ℕ) (x0 : Option E) (s : L2State E C) (hs : L2.init { a with niter := .fn f } x0 = .ok s) (calls : List (E × ℝ)) (x : E) (τ : ℝ) :
    L2.prox ext { a with niter := .fn f } (L2.after ext { a with niter := .fn f } s calls) x τ =
      L2.prox ext { a with niter := .const (f (calls.length + 1)) } (L2.after ext { a with niter := .fn f } s calls) x τ := by
  have hc := l2_after_count ext { a with niter := .fn f } calls s
  have h0 : s.count = 0 := by
    unfold L2.init at hs
    split_ifs at hs
    cases hs; rfl
  rw [h0, zero_add] at hc
  set st := L2.after ext { a with niter := .fn f } s calls
  unfold L2.prox L2.proxBody
  simp only [NIter.get, hc]
  rfl

/-- C17: with a constant `niter` and `solver="legacy"` the inner solver is `lsqr` on the normal equations, with `"cg"` it is `cg`, each with that number of iterations and the stored
starting point; their answer is the result and, with `warm`, the next starting point. -/
theorem C17_l2_solvers (ext : L2Ext E F C) (Op : LinOp E F) (b : F) (q : Option E) (σ α : ℝ) (qg : Bool) (n : ℕ) (warm : Bool) (ds : DenseSolver) (s : L2State E C) (x : E) {τ : ℝ} (hτ : 0 < τ) :
    let y := x + τ • (σ • Op.rmatvec b) - (match q with | some q => (τ * α) • q | none => 0)
    let N : E →ₗ[ℝ] E := LinearMap.id + (τ * σ) • (Op.rmatvec ∘ₗ Op.matvec)
    (∀ sv z, (sv = L2Solver.legacy ∧ z = ext.lsqr N y n s.x0) ∨ (sv = L2Solver.cg ∧ z = ext.cg N y n s.x0) →
      (L2.prox ext ⟨.opB Op false b, q, σ, α, qg, .const n, warm, sv, ds⟩ s x τ).2.1 = .ok z ∧
      (L2.prox ext ⟨.opB Op false b, q, σ, α, qg, .const n, warm, sv, ds⟩ s x τ).1.x0 = if warm then some z else s.x0) := by
  intro y N sv z h
  have hy : L2.subQ (⟨.opB Op false b, q, σ, α, qg, .const n, warm, sv, ds⟩ : L2Args E F) (x + τ • (σ • Op.rmatvec b)) τ = y := by
    cases q <;> simp [L2.subQ, y]
  have hy' := hy
  rcases h with ⟨rfl, rfl⟩ | ⟨rfl, rfl⟩ <;>
  · unfold L2.prox
    rw [if_neg (not_le.2 hτ)]
    unfold L2.proxBody
    simp only [L2Solver.normaleqs, NIter.get, hy, Bool.false_eq_true, if_false, if_true, reduceCtorEq]
    cases warm <;> exact ⟨rfl, rfl⟩

/-- C36: the solvers `"legacy"` and `"cg"` leave the caller's array as it was. -/
theorem C36_l2_solvers_input_partial (ext : L2Ext E F C) (Op : LinOp E F) (e : Bool) (b : F) (q : Option E) (σ α : ℝ) (qg : Bool) (nt : NIter) (warm : Bool) (sv : L2Solver)
    (hsv : sv = .legacy ∨ sv = .cg) (ds : DenseSolver) (s : L2State E C) (x : E) (τ : ℝ) : (L2.prox ext ⟨.opB Op e b, q, σ, α, qg, nt, warm, sv, ds⟩ s x τ).2.2 = x :=
  C36_l2_input_partial ext _ s x τ (Or.inr (Or.inr ⟨Op, e, b, rfl, Or.inr (by rcases hsv with rfl | rfl <;> rfl)⟩))

/-! ## C83, C30 -/

/-- C83: an exception raised in a block is raised by the stack: `prox` returns iff it returns on every block. -/
theorem C83_blocks_raise {β : Type} [Fintype β] (op : ProxOp (Vec β)) (ncl : ℕ) (x : Vec (Fin ncl × β)) {τ : ℝ} (hτ : 0 < τ) :
    Returns ((VStackSame op ncl).prox x τ) ↔ ∀ k, Returns (op.prox (vmk fun b => x (k, b)) τ) := by
  have e : (VStackSame op ncl).prox x τ = hstackBlocks fun k => op.prox (segBlock x k) τ := by
    simp only [ProxOp.prox, VStackSame, checkTau_pos hτ]
  rw [e]
  unfold hstackBlocks
  have hr : ∀ k, Returns (op.prox (vmk fun b => x (k, b)) τ) ↔ blockErr (op.prox (segBlock x k) τ) = none := fun k => by
    change Returns (op.prox (segBlock x k) τ) ↔ _
    cases h : op.prox (segBlock x k) τ with
    | error e => simp [Returns, blockErr]
    | ok v => simp [Returns, blockErr]
  simp only [hr]
  cases h : (List.finRange ncl).findSome? fun k => blockErr (op.prox (segBlock x k) τ) with
  | some err =>
    have h' : ¬ ∀ k, blockErr (op.prox (segBlock x k) τ) = none := fun hn => by
      rw [List.findSome?_eq_none_iff.2 fun k _ => hn k] at h
      exact absurd h (by simp)
    simp only [h', iff_false]
    rintro ⟨v, hv⟩
    exact absurd hv (by simp)
  | none =>
    have h' : ∀ k, blockErr (op.prox (segBlock x k) τ) = none := fun k => List.findSome?_eq_none_iff.1 h k (List.mem_finRange k)
    simp only [h', implies_true, iff_true]
    exact ⟨_, rfl⟩

/-- C30: with restrictions the value of the stack is the sum of the values of the blocks on their entries. -/
theorem C30_vstack_restr_call (G : ListOp → List ℝ → ℝ) (ops : List ListOp) (iavas : List (List ℕ)) (x : List ℝ) (hx : x.length = (iavas.map List.length).sum)
    (h : List.Forall₂ (fun op iava => ∃ c, op.call (iava.map fun i => x.getD i 0) = .ok c ∧ c.toReal = G op (iava.map fun i => x.getD i 0)) ops iavas) :
    VStack.call ops (.restr iavas) x = .ok (.num (List.zipWith (fun op iava => G op (iava.map fun i => x.getD i 0)) ops iavas).sum) := by
  have key : ∀ (ops : List ListOp) (iavas : List (List ℕ)) (f : ℝ),
      List.Forall₂ (fun op iava => ∃ c, op.call (iava.map fun i => x.getD i 0) = .ok c ∧ c.toReal = G op (iava.map fun i => x.getD i 0)) ops iavas →
      VStack.callLoopR x ops iavas f = .ok (f + (List.zipWith (fun op iava => G op (iava.map fun i => x.getD i 0)) ops iavas).sum) := by
    intro ops iavas f h
    induction h generalizing f with
    | nil => simp [VStack.callLoopR]
    | cons h _ ih =>
      obtain ⟨c, h1, h2⟩ := h
      simp only [VStack.callLoopR, VStack.gather, h1, bind, Except.bind, ih, List.zipWith_cons_cons, List.sum_cons, h2, add_assoc]
  have hx' : ¬ x.length ≠ StackBy.nx (.restr iavas) := not_not.2 hx
  simp only [VStack.call, if_neg hx', key ops iavas 0 h, bind, Except.bind, pure, Except.pure, zero_add]

/-- C30: a stack described by an empty list of sizes is refused, with `IndexError` instead of `ValueError`. -/
theorem C30_empty_nn_refuted (restr : Option (List (List ℕ))) : VStack.init (some []) restr = .error .indexError := rfl

/-- C30: sizes win over restrictions when both are given, and a stack is accepted iff its description is not empty. -/
theorem C30_init (nn : Option (List ℕ)) (restr : Option (List (List ℕ))) :
    Returns (VStack.init nn restr) ↔ (∃ ns, nn = some ns ∧ ns ≠ []) ∨ (nn = none ∧ restr ≠ none) := by
  rcases nn with - | (- | ⟨n, ns⟩) <;> rcases restr with - | r <;> simp [VStack.init, Returns]

/-! ## C81 -/

/-- C81: the denoiser contributes zero to every objective, whatever it does. -/
theorem C81_denoise_value {ι κ : Type} [Fintype ι] [Fintype κ] (e : Option (ι ≃ κ)) (den : Vec κ → ℝ → Py (Vec κ)) (x : Vec ι) :
    ∃ v, (Denoise e den).call x = .ok v ∧ v.toReal = 0 := ⟨_, rfl, rfl⟩

/-! ## C105 -/

open XF

variable {ι : Type} [Fintype ι]

/-- C105: `proxdual` by Moreau's identity on finite arrays is the real one wherever `prox` is. -/
theorem C105_moreau_agrees {mx : (ι → XF) → ℝ → Py (ι → XF)} {m : Vec ι → ℝ → Py (Vec ι)} (h : ∀ x τ y, m x τ = .ok y → mx (liftX x) τ = .ok (liftX y)) (x : Vec ι) (τ : ℝ) (y : Vec ι)
    (hy : ProxOp.moreauStep m x τ = .ok y) : moreauStepX mx (liftX x) τ = .ok (liftX y) := by
  rcases le_or_gt τ 0 with hτ | hτ
  · rw [ProxOp.moreauStep, checkTau, if_pos hτ] at hy; cases hy
  · rw [ProxOp.moreauStep, checkTau_pos hτ] at hy
    rw [moreauStepX, checkTau_pos hτ]
    have e : (fun i => liftX x i / fin τ) = liftX ((1 / τ) • x) := by
      funext i
      simp only [liftX, fin_div' hτ.ne', PiLp.smul_apply, smul_eq_mul]
      congr 1; ring
    rw [e]
    cases hm : m ((1 / τ) • x) (1 / τ) with
    | error er => rw [hm] at hy; cases hy
    | ok d =>
      rw [hm] at hy
      simp only [bind, Except.bind, pure, Except.pure, Except.ok.injEq] at hy
      rw [h _ _ _ hm, ← hy]
      simp only [bind, Except.bind, pure, Except.pure]
      congr 1

/-- C105: the penalties `ETP` and `Geman` of an infinite entry: `ETP` takes its supremum there, `Geman` becomes NaN. -/
theorem C105_inf_penalty (σ : ℝ) {γ : ℝ} (hγ : 0 < γ) {x : XF} (hx : x = pinf ∨ x = ninf) (hσ : 0 < σ) :
    etpElemX σ γ x = fin (σ / (1 - Real.exp (-γ))) ∧ gemanElemX σ γ x = nan := by
  have h1 : (1 : ℝ) - Real.exp (-γ) ≠ 0 := by
    have : Real.exp (-γ) < 1 := by simpa using hγ
    linarith
  have habs : x.abs = pinf := by rcases hx with rfl | rfl <;> rfl
  have hm : fin (-γ) * pinf = ninf := by
    change XF.mul _ _ = _
    simp [XF.mul, infSign, hγ.ne', not_lt.2 hγ.le]
  constructor
  · simp only [etpElemX, habs, hm, fin_exp]
    change fin σ / (fin 1 - fin (Real.exp (-γ))) * (fin 1 - fin 0) = _
    rw [fin_sub', fin_div' h1, fin_sub', fin_mul']
    simp
  · simp only [gemanElemX, habs, fin_mul_pinf hσ]
    rfl

/-! ## Concrete cases -/

/-- Of a hundred passes the twentieth and not the twenty-fifth prints a line. -/
example : printed 100 20 = true ∧ printed 100 25 = false := by
  refine ⟨((C76_lines (by norm_num)).2 (by norm_num) (by norm_num)).2.2 ⟨2, rfl⟩, ?_⟩
  have h := ((C76_lines (niter := 100) (i := 25) (by norm_num)).2 (by norm_num) (by norm_num)).2
  rw [Bool.eq_false_iff]
  intro hc
  exact absurd (h.1 hc) (by decide)

/-- The function of `C105_moreau_agrees` is met by `L1`. -/
example (σ : ℝ) (x : Vec ι) (τ : ℝ) (y : Vec ι) (hy : ProxOp.moreauStep (L1 σ none).prox x τ = .ok y) : moreauStepX (L1X.prox σ none) (liftX x) τ = .ok (liftX y) :=
  C105_moreau_agrees (fun x τ y h => by
    have := C105_l1_agrees σ none x τ
    rw [h] at this
    exact this) x τ y hy

/-- Two restrictions that interleave three entries. -/
example : VStack.call [⟨fun v => .ok (.num v.sum), fun v _ => .ok v, fun v => .ok v, true⟩, ⟨fun v => .ok (.num v.sum), fun v _ => .ok v, fun v => .ok v, true⟩]
    (.restr [[2, 0], [1]]) [1, 10, 100] = .ok (.num 111) := by
  rw [C30_vstack_restr_call (fun _ v => v.sum) _ _ _ rfl (by simp [CallVal.toReal])]
  norm_num

end Verif
