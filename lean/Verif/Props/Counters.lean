import Verif.Model.Counters
import Verif.Props.Calculus

/-! # C35: parameters that follow the number of calls of `prox` -/

open scoped RealInnerProductSpace

namespace Verif

variable {E : Type} [NormedAddCommGroup E] [InnerProductSpace ℝ E] {ι κ : Type} [Fintype ι] [Fintype κ]

/-- Specification: the answer of the operator object `f` (with fixed parameters) to a method call. -/
noncomputable def ProxOp.answer (f : ProxOp E) : OpCall E → Answer E
  | .prox x τ => .vec (f.prox x τ)
  | .proxdual x τ => .vec (f.proxdual x τ)
  | .grad x => .vec (f.grad x)
  | .call x => .val (f.call x)

/-- Specification: does the method call execute `prox`?  `proxdual` and `grad` of the base class do; `proxdual` refuses a non-positive step before. -/
noncomputable def OpCall.usesProx : OpCall E → Bool
  | .prox _ _ => true
  | .proxdual _ τ => (open Classical in decide (0 < τ))
  | .grad _ => true
  | .call _ => false

/-- The object with function parameters behaves like the object `op k` with the parameters at `k`. -/
structure Refines (C : CountedClass E) (op : ℕ → ProxOp E) : Prop where
  prox : ∀ k x τ, (op k).prox x τ = checkTau τ (C.body k x τ)
  call : ∀ k x, (op k).call x = C.callAt k x
  dual : ∀ k x τ, (op k).proxdual x τ = checkTau τ (ProxOp.moreauStep (op k).prox x τ)
  grad : ∀ k x, (op k).grad x = ((op k).prox x 1).map fun d => (1 / (1 : ℝ)) • (x - d)

lemma counted_step {C : CountedClass E} {op : ℕ → ProxOp E} (h : Refines C op) (hd : C.ownDual = none) (c : ℕ) (a : OpCall E) :
    C.step c a = (if a.usesProx then c + 1 else c, (op (if a.usesProx then c + 1 else c)).answer a) := by
  cases a with
  | prox x τ => simp [CountedClass.step, CountedClass.prox, OpCall.usesProx, ProxOp.answer, h.prox]
  | call x => simp [CountedClass.step, OpCall.usesProx, ProxOp.answer, h.call]
  | grad x => simp [CountedClass.step, CountedClass.grad, CountedClass.prox, OpCall.usesProx, ProxOp.answer, h.prox, h.grad]
  | proxdual x τ =>
    by_cases hτ : 0 < τ
    · simp only [CountedClass.step, CountedClass.proxdual, hd, OpCall.usesProx, hτ, decide_true, if_true, if_neg (not_le.2 hτ), CountedClass.prox, ProxOp.answer, h.dual, checkTau_pos hτ,
        ProxOp.moreauStep, h.prox, checkTau_pos (one_div_pos.2 hτ)]
      rfl
    · have h1 : τ ≤ 0 := not_lt.1 hτ
      simp [CountedClass.step, CountedClass.proxdual, hd, OpCall.usesProx, hτ, h1, ProxOp.answer, h.dual, checkTau]

/-- The `j`-th answer in a history is the one of the object with the parameters at the number of executions of `prox` so far (including this one). -/
lemma counted_history {C : CountedClass E} {op : ℕ → ProxOp E} (h : Refines C op) (hd : C.ownDual = none) :
    ∀ (l : List (OpCall E)) (c j : ℕ) (a : OpCall E), l[j]? = some a → (C.history c l)[j]? = some ((op (c + (l.take (j + 1)).countP OpCall.usesProx)).answer a) := by
  intro l
  induction l with
  | nil => intro c j a h; simp at h
  | cons b l ih =>
    intro c j a hj
    cases j with
    | zero =>
      simp only [List.getElem?_cons_zero, Option.some.injEq] at hj
      subst hj
      simp only [CountedClass.history, counted_step h hd, List.getElem?_cons_zero, zero_add, List.take_succ_cons, List.take_zero, Option.some.injEq]
      congr 2
      by_cases hb : b.usesProx <;> simp [hb]
    | succ j =>
      simp only [List.getElem?_cons_succ] at hj
      simp only [CountedClass.history, List.getElem?_cons_succ]
      rw [ih _ j a hj, counted_step h hd]
      congr 3
      rw [List.take_succ_cons, List.countP_cons]
      by_cases hb : b.usesProx <;> simp [hb]; omega

/-- C35: in any sequence of method calls on one `L0` object with a function `sigma`, every answer is the one of `L0` with the constant `sigma(k)`, `k` being the number of executions of
`prox` so far, this one included. -/
theorem C35_l0 (σ : ℕ → ℝ) (l : List (OpCall (Vec ι))) (j : ℕ) (a : OpCall (Vec ι)) (h : l[j]? = some a) :
    ((L0c σ).history 0 l)[j]? = some ((L0 (σ ((l.take (j + 1)).countP OpCall.usesProx))).answer a) := by
  have := counted_history (C := L0c σ) (op := fun k => (L0 (σ k) : ProxOp (Vec ι))) ⟨fun _ _ _ => rfl, fun _ _ => rfl, fun _ _ _ => rfl, fun _ _ => rfl⟩ rfl l 0 j a h
  rwa [zero_add] at this

/-- C35 for `L0Ball` with a function `radius`. -/
theorem C35_l0ball (argsort : Vec ι → List ι) (r : ℕ → ℕ) (l : List (OpCall (Vec ι))) (j : ℕ) (a : OpCall (Vec ι)) (h : l[j]? = some a) :
    ((L0Ballc argsort r).history 0 l)[j]? = some ((L0Ball argsort (r ((l.take (j + 1)).countP OpCall.usesProx))).answer a) := by
  have := counted_history (C := L0Ballc argsort r) (op := fun k => L0Ball argsort (r k)) ⟨fun _ _ _ => rfl, fun _ _ => rfl, fun _ _ _ => rfl, fun _ _ => rfl⟩ rfl l 0 j a h
  rwa [zero_add] at this

/-- C35 for `L10Ball` with a function `radius`. -/
theorem C35_l10ball (argsort : (κ → ℝ) → List κ) (r : ℕ → ℕ) (l : List (OpCall (Vec (ι × κ)))) (j : ℕ) (a : OpCall (Vec (ι × κ))) (h : l[j]? = some a) :
    ((L10Ballc argsort r).history 0 l)[j]? = some ((L10Ball argsort (r ((l.take (j + 1)).countP OpCall.usesProx))).answer a) := by
  have := counted_history (C := L10Ballc argsort r) (op := fun k => L10Ball argsort (r k)) ⟨fun _ _ _ => rfl, fun _ _ => rfl, fun _ _ _ => rfl, fun _ _ => rfl⟩ rfl l 0 j a h
  rwa [zero_add] at this

/-- C35 for `RelaxedMumfordShah` with functions `sigma` and `kappa`. -/
theorem C35_relaxedms (σ k : ℕ → ℝ) (l : List (OpCall (Vec ι))) (j : ℕ) (a : OpCall (Vec ι)) (h : l[j]? = some a) :
    ((RelaxedMSc σ k).history 0 l)[j]?
      = some ((RelaxedMS (σ ((l.take (j + 1)).countP OpCall.usesProx)) (k ((l.take (j + 1)).countP OpCall.usesProx))).answer a) := by
  have := counted_history (C := RelaxedMSc σ k) (op := fun n => (RelaxedMS (σ n) (k n) : ProxOp (Vec ι))) ⟨fun _ _ _ => rfl, fun _ _ => rfl, fun _ _ _ => rfl, fun _ _ => rfl⟩ rfl l 0 j a h
  rwa [zero_add] at this

/-- C35 for `L1` with a function `sigma` and a vector `g`. -/
theorem C35_l1_g (σ : ℕ → ℝ) (g : Vec ι) (l : List (OpCall (Vec ι))) (j : ℕ) (a : OpCall (Vec ι)) (h : l[j]? = some a) :
    ((L1gc σ g).history 0 l)[j]? = some ((L1 (σ ((l.take (j + 1)).countP OpCall.usesProx)) (some g)).answer a) := by
  have := counted_history (C := L1gc σ g) (op := fun k => L1 (σ k) (some g)) ⟨fun _ _ _ => rfl, fun _ _ => rfl, fun _ _ _ => rfl, fun _ _ => rfl⟩ rfl l 0 j a h
  rwa [zero_add] at this

/-- Specification for `L1` without `g`, whose `proxdual` does not execute `prox`. -/
def OpCall.isProxOrGrad : OpCall E → Bool
  | .prox _ _ => true
  | .proxdual _ _ => false
  | .grad _ => true
  | .call _ => false

/-- Specification for `L1` without `g`: the value of the counter whose parameter a method uses, `k` being the number of calls of `prox` and `grad` so far. -/
def OpCall.l1Index (k : ℕ) : OpCall E → ℕ
  | .proxdual _ _ => 0
  | _ => k

lemma l1c_step (σ : ℕ → ℝ) (c : ℕ) (a : OpCall (Vec ι)) :
    (L1c σ).step c a = (if a.isProxOrGrad then c + 1 else c, (L1 (σ (a.l1Index (if a.isProxOrGrad then c + 1 else c))) none).answer a) := by
  cases a <;> rfl

/-- C35 for `L1` with a function `sigma`: `prox`, `grad` and the value use `sigma(k)`, `k` being the number of calls of `prox` and `grad` so far; `proxdual` uses `sigma(0)` always. -/
theorem C35_l1 (σ : ℕ → ℝ) (l : List (OpCall (Vec ι))) (j : ℕ) (a : OpCall (Vec ι)) (h : l[j]? = some a) :
    ((L1c σ).history 0 l)[j]? = some ((L1 (σ (a.l1Index ((l.take (j + 1)).countP OpCall.isProxOrGrad))) none).answer a) := by
  suffices H : ∀ (l : List (OpCall (Vec ι))) (c j : ℕ), l[j]? = some a →
      ((L1c σ).history c l)[j]? = some ((L1 (σ (a.l1Index (c + (l.take (j + 1)).countP OpCall.isProxOrGrad))) none).answer a) by
    have := H l 0 j h
    rwa [zero_add] at this
  intro l
  induction l with
  | nil => intro c j h; simp at h
  | cons b l ih =>
    intro c j hj
    cases j with
    | zero =>
      simp only [List.getElem?_cons_zero, Option.some.injEq] at hj
      subst hj
      simp only [CountedClass.history, l1c_step, List.getElem?_cons_zero, zero_add, List.take_succ_cons, List.take_zero, Option.some.injEq]
      by_cases hb : b.isProxOrGrad <;> simp [hb]
    | succ j =>
      simp only [List.getElem?_cons_succ] at hj
      simp only [CountedClass.history, List.getElem?_cons_succ]
      rw [ih _ j hj, l1c_step]
      rw [List.take_succ_cons, List.countP_cons]
      by_cases hb : b.isProxOrGrad
      · simp only [hb, if_true]
        rw [show c + 1 + (l.take (j + 1)).countP OpCall.isProxOrGrad = c + ((l.take (j + 1)).countP OpCall.isProxOrGrad + 1) by omega]
      · simp [hb]

/-- C35, the histories made of successful calls of `prox` only: the `j`-th call (from 0) uses `sigma(j+1)`. -/
theorem C35_kth_prox (σ : ℕ → ℝ) (xs : List (Vec ι × ℝ)) (j : ℕ) (p : Vec ι × ℝ) (h : xs[j]? = some p) :
    ((L0c σ).history 0 (xs.map fun q => OpCall.prox q.1 q.2))[j]? = some (.vec ((L0 (σ (j + 1))).prox p.1 p.2)) := by
  have hj : j < xs.length := (List.getElem?_eq_some_iff.1 h).1
  have := C35_l0 σ (xs.map fun q => OpCall.prox q.1 q.2) j (.prox p.1 p.2) (by rw [List.getElem?_map, h]; rfl)
  rw [this, ← List.map_take, List.countP_map, List.countP_eq_length.2 (by intro a _; rfl), List.length_take, min_eq_left (by omega)]
  rfl

/-- A rejected call of `prox` is not neutral: `sigma` is `k ↦ k`; after `prox(x, 0)`, which raises, `prox(10, 1)` gives 8 instead of 9. -/
theorem C35_failed_call_refuted : ∃ (σ : ℕ → ℝ) (x : Vec Unit) (τ : ℝ) (b : OpCall (Vec Unit)),
    (∃ e, ((L1c σ).step 0 (.prox x τ)).2 = .vec (.error e)) ∧ ((L1c σ).history 0 [.prox x τ, b])[1]? ≠ ((L1c σ).history 0 [b])[0]? := by
  refine ⟨fun k => k, vmk fun _ => 10, 0, .prox (vmk fun _ => 10) 1, ⟨.valueError, by simp [CountedClass.step, CountedClass.prox, checkTau]⟩, ?_⟩
  simp only [CountedClass.history, CountedClass.step, CountedClass.prox, checkTau_pos one_pos, L1c, List.getElem?_cons_succ, List.getElem?_cons_zero, ne_eq, Option.some.injEq, Answer.vec.injEq,
    Except.ok.injEq]
  intro h
  have := congrFun (congrArg (fun v : Vec Unit => (fun i => v i)) h) ()
  norm_num [softthreshold, vmk, softScalar, npsign] at this

/-- The counter that `sigma` receives is documented as the number of times `prox` "has been invoked before", but the first call uses `sigma(1)`. -/
theorem C35_documented_counter_refuted : ∃ (σ : ℕ → ℝ) (x : Vec Unit) (τ : ℝ), 0 < τ ∧ ((L1c σ).step 0 (.prox x τ)).2 ≠ (L1 (σ 0) none).answer (.prox x τ) := by
  refine ⟨fun k => k, vmk fun _ => 10, 1, one_pos, ?_⟩
  simp only [CountedClass.step, CountedClass.prox, checkTau_pos one_pos, L1c, ProxOp.answer, ProxOp.prox, L1, ne_eq, Answer.vec.injEq, Except.ok.injEq]
  intro h
  have := congrFun (congrArg (fun v : Vec Unit => (fun i => v i)) h) ()
  norm_num [softthreshold, vmk, softScalar, npsign] at this

/-- With a function `sigma`, `prox` and `proxdual` of one `L1` object do not belong to one function: Moreau's identity fails between two consecutive calls. -/
theorem C35_l1_dual_refuted : ∃ (σ : ℕ → ℝ) (x p d : Vec Unit), (∀ k, 0 ≤ σ k) ∧
    (L1c σ).history 0 [.prox x 1, .proxdual x 1] = [.vec (.ok p), .vec (.ok d)] ∧ p + d ≠ x := by
  refine ⟨fun k => k, vmk fun _ => 10, softthreshold (vmk fun _ => 10) fun _ => 1 * ((0 + 1 : ℕ) : ℝ), boxProj (fun _ => some (-((0 : ℕ) : ℝ))) (fun _ => some ((0 : ℕ) : ℝ)) (vmk fun _ => 10),
    fun k => Nat.cast_nonneg k, ?_, ?_⟩
  · simp only [CountedClass.history, CountedClass.step, CountedClass.prox, CountedClass.proxdual, checkTau_pos one_pos, L1c]
  · intro h
    have := congrFun (congrArg (fun v : Vec Unit => (fun i => v i)) h) ()
    norm_num [softthreshold, vmk, boxProj, softScalar, boxClip, npsign, minUpper, maxLower] at this

/-- A history with every kind of call: `L1` with `sigma` equal to `k`. -/
example : ((L1c (fun k => (k : ℝ))).history 0 [.prox (vmk fun _ : Unit => 10) 1, .call (vmk fun _ => 10), .grad (vmk fun _ => 10), .prox (vmk fun _ => 10) 1])[3]?
    = some ((L1 ((3 : ℕ) : ℝ) none).answer (.prox (vmk fun _ : Unit => 10) 1)) := by
  rw [C35_l1 _ _ 3 _ rfl]
  rfl

end Verif
