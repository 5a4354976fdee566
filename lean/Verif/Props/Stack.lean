import Verif.Model.Stack
import Verif.Lemmas.Calculus
import Verif.Spec.Contract
import Mathlib.Algebra.BigOperators.Group.List.Basic
import Mathlib.Algebra.Order.BigOperators.Group.List
import Mathlib.Data.List.Forall2
import Mathlib.Data.List.Range

/-! # C30: `VStack`; C31: `Orthogonal` -/

open scoped RealInnerProductSpace

namespace Verif

/-! ## Specification on lists -/

/-- Squared Euclidean distance of two 1-D arrays. -/
def sqd (y x : List ℝ) : ℝ := (List.zipWith (fun a b => (a - b) ^ 2) y x).sum

/-- `p` minimises `F(y) + ||y - x||^2/(2 tau)` among the arrays of the size of `x`. -/
def LIsProx (F : XFun (List ℝ)) (τ : ℝ) (x p : List ℝ) : Prop :=
  p.length = x.length ∧ p ∈ F.dom ∧
    ∀ y, y.length = x.length → y ∈ F.dom → F.val p + sqd p x / (2 * τ) ≤ F.val y + sqd y x / (2 * τ)

/-- The separable function of consecutive blocks: `F_1` of the first `n_1` entries plus `F_2` of the next `n_2`, ... -/
def stackF : List (ℕ × XFun (List ℝ)) → XFun (List ℝ)
  | [] => ⟨Set.univ, fun _ => 0⟩
  | (n, F) :: r => ⟨{y | y.take n ∈ F.dom ∧ y.drop n ∈ (stackF r).dom}, fun y => F.val (y.take n) + (stackF r).val (y.drop n)⟩

/-- The entries of `y` at the given positions. -/
def pick (idx : List ℕ) (y : List ℝ) : List ℝ := idx.map fun i => y.getD i 0

/-- The function of blocks given by index lists. -/
def stackR (Bs : List (List ℕ × XFun (List ℝ))) : XFun (List ℝ) :=
  ⟨{y | ∀ B ∈ Bs, pick B.1 y ∈ B.2.dom}, fun y => (Bs.map fun B => B.2.val (pick B.1 y)).sum⟩

/-- `prox` of a block operator is exact on arrays of length `n`. -/
def ListProxExact (op : ListOp) (n : ℕ) (F : XFun (List ℝ)) : Prop :=
  ∀ x τ, x.length = n → 0 < τ → ∃ p, op.prox x τ = .ok p ∧ LIsProx F τ x p

lemma sqd_split (n : ℕ) (y x : List ℝ) : sqd y x = sqd (y.take n) (x.take n) + sqd (y.drop n) (x.drop n) := by
  unfold sqd
  rw [← List.take_zipWith, ← List.drop_zipWith, List.sum_take_add_sum_drop]

lemma slice_eq (pre ns : List ℕ) (n : ℕ) (x : List ℝ) :
    VStack.slice (pre ++ n :: ns) pre.length x = .ok ((x.drop pre.sum).take n) := by
  unfold VStack.slice
  rw [if_pos (by simp)]
  have h1 : (pre ++ n :: ns).take (pre.length + 1) = pre ++ [n] := by
    rw [show pre ++ n :: ns = (pre ++ [n]) ++ ns by simp]
    rw [show pre.length + 1 = (pre ++ [n]).length by simp, List.take_left]
  rw [h1, List.take_left, List.sum_append, List.drop_take]
  simp

lemma stack_isProx (n : ℕ) (F : XFun (List ℝ)) (r : List (ℕ × XFun (List ℝ))) {τ : ℝ} {x p q : List ℝ}
    (hn : n ≤ x.length) (hp : LIsProx F τ (x.take n) p) (hq : LIsProx (stackF r) τ (x.drop n) q) :
    LIsProx (stackF ((n, F) :: r)) τ x (p ++ q) := by
  have hpl : p.length = n := by rw [hp.1, List.length_take, min_eq_left hn]
  have ht : (p ++ q).take n = p := by rw [← hpl, List.take_left]
  have hd : (p ++ q).drop n = q := by rw [← hpl, List.drop_left]
  refine ⟨?_, ?_, fun y hy hyd => ?_⟩
  · rw [List.length_append, hpl, hq.1, List.length_drop]; omega
  · simp only [stackF, Set.mem_ofPred_eq, ht, hd]; exact ⟨hp.2.1, hq.2.1⟩
  · simp only [stackF, Set.mem_ofPred_eq] at hyd
    simp only [stackF, ht, hd]
    rw [sqd_split n (p ++ q) x, sqd_split n y x, ht, hd, add_div, add_div]
    have h1 := hp.2.2 (y.take n) (by simp [hy]) hyd.1
    have h2 := hq.2.2 (y.drop n) (by simp [hy]) hyd.2
    linarith

lemma hstack_isProx (ops : List ListOp) (Fs : List (ℕ × XFun (List ℝ)))
    (h : List.Forall₂ (fun op nF => ListProxExact op nF.1 nF.2) ops Fs) {τ : ℝ} (hτ : 0 < τ) :
    ∀ (pre : List ℕ) (x : List ℝ), x.length = pre.sum + (Fs.map Prod.fst).sum →
      ∃ p, VStack.hstack (pre ++ Fs.map Prod.fst) (fun op v => op.prox v τ) x ops pre.length = .ok p ∧
        LIsProx (stackF Fs) τ (x.drop pre.sum) p := by
  induction h with
  | nil =>
    intro pre x hx
    refine ⟨[], rfl, ?_, trivial, fun y hy _ => ?_⟩
    · simp at hx; simp [hx]
    · have : y = [] := by
        rw [← List.length_eq_zero_iff, hy]; simp at hx; simp [hx]
      rw [this]
  | @cons op nF ops Fs hop hrest ih =>
    intro pre x hx
    simp only [List.map_cons, List.sum_cons] at hx
    obtain ⟨p, hp, hpp⟩ := hop ((x.drop pre.sum).take nF.1) τ (by simp; omega) hτ
    obtain ⟨q, hq, hqq⟩ := ih (pre ++ [nF.1]) x (by simp; omega)
    refine ⟨p ++ q, ?_, ?_⟩
    · simp only [VStack.hstack, List.map_cons, slice_eq]
      simp only [List.append_assoc, List.singleton_append, List.length_append, List.length_singleton] at hq
      simp only [bind, Except.bind, hp, hq, pure, Except.pure]
    · apply stack_isProx
      · simp; omega
      · exact hpp
      · rw [List.drop_drop]; simpa using hqq

/-- C30, partial: with as many operators as sizes, `VStack.prox` is the proximal map of the separable sum, for any number and
sizes of blocks.  Missing: a number of operators different from the number of sizes, see `C30_vstack_missing_ops_refuted`. -/
theorem C30_vstack_prox_partial (ops : List ListOp) (Fs : List (ℕ × XFun (List ℝ)))
    (h : List.Forall₂ (fun op nF => ListProxExact op nF.1 nF.2) ops Fs) (hne : ops ≠ []) (x : List ℝ)
    (hx : x.length = (Fs.map Prod.fst).sum) (τ : ℝ) (hτ : 0 < τ) :
    ∃ p, VStack.prox ops (.nn (Fs.map Prod.fst)) x τ = .ok p ∧ LIsProx (stackF Fs) τ x p := by
  obtain ⟨p, hp, hpp⟩ := hstack_isProx ops Fs h hτ [] x (by simpa using hx)
  refine ⟨p, ?_, by simpa using hpp⟩
  simp only [VStack.prox, checkTau_pos hτ, VStack.apply, StackBy.nx, hx]
  simpa [hne] using hp

/-- Concatenation: the blocks of the output are the outputs of the blocks, in order. -/
lemma hstack_concat (m : ListOp → List ℝ → Py (List ℝ)) (R : ListOp → List ℝ → List ℝ) (ops : List ListOp) (xs : List (List ℝ))
    (h : List.Forall₂ (fun op x => m op x = .ok (R op x)) ops xs) :
    ∀ (pre : List ℕ) (x0 : List ℝ), x0.length = pre.sum →
      VStack.hstack (pre ++ xs.map List.length) m (x0 ++ xs.flatten) ops pre.length = .ok (List.zipWith R ops xs).flatten := by
  induction h with
  | nil => intro pre x0 _; rfl
  | @cons op x ops xs hop hrest ih =>
    intro pre x0 hx0
    have := ih (pre ++ [x.length]) (x0 ++ x) (by simp [hx0])
    simp only [List.append_assoc, List.singleton_append, List.length_append, List.length_singleton] at this
    simp only [VStack.hstack, List.map_cons, slice_eq, List.flatten_cons, List.zipWith_cons_cons]
    have e : ((x0 ++ (x ++ xs.flatten)).drop pre.sum).take x.length = x := by
      rw [← hx0, List.drop_left, List.take_left]
    rw [e]
    simp only [bind, Except.bind, hop, this, pure, Except.pure]

/-- C30: the gradient of a stack is the concatenation of the gradients of the blocks (and, with the same hypotheses on `prox`,
the proximal point the concatenation of the proximal points), every block in its place. -/
theorem C30_vstack_concat (R : ListOp → List ℝ → List ℝ) (ops : List ListOp) (xs : List (List ℝ)) (hne : ops ≠ []) :
    (List.Forall₂ (fun op x => op.grad x = .ok (R op x)) ops xs →
      VStack.grad ops (.nn (xs.map List.length)) xs.flatten = .ok (List.zipWith R ops xs).flatten) ∧
    ∀ τ, 0 < τ → List.Forall₂ (fun op x => op.prox x τ = .ok (R op x)) ops xs →
      VStack.prox ops (.nn (xs.map List.length)) xs.flatten τ = .ok (List.zipWith R ops xs).flatten := by
  have hlen : xs.flatten.length = (xs.map List.length).sum := List.length_flatten
  constructor
  · intro h
    have := hstack_concat (fun op v => op.grad v) R ops xs h [] [] rfl
    simp only [VStack.grad, VStack.apply, StackBy.nx, hlen]
    simpa [hne] using this
  · intro τ hτ h
    have := hstack_concat (fun op v => op.prox v τ) R ops xs h [] [] rfl
    simp only [VStack.prox, checkTau_pos hτ, VStack.apply, StackBy.nx, hlen]
    simpa [hne] using this

lemma callLoop_sum (G : ListOp → List ℝ → ℝ) (ops : List ListOp) (xs : List (List ℝ))
    (h : List.Forall₂ (fun op x => ∃ c, op.call x = .ok c ∧ c.toReal = G op x) ops xs) :
    ∀ (pre : List ℕ) (x0 : List ℝ) (f : ℝ), x0.length = pre.sum →
      VStack.callLoop (pre ++ xs.map List.length) (x0 ++ xs.flatten) ops pre.length f = .ok (f + (List.zipWith G ops xs).sum) := by
  induction h with
  | nil => intro pre x0 f _; simp [VStack.callLoop]
  | @cons op x ops xs hop hrest ih =>
    intro pre x0 f hx0
    obtain ⟨c, hc, hcr⟩ := hop
    have := ih (pre ++ [x.length]) (x0 ++ x) (f + G op x) (by simp [hx0])
    simp only [List.append_assoc, List.singleton_append, List.length_append, List.length_singleton] at this
    simp only [VStack.callLoop, List.map_cons, slice_eq, List.flatten_cons, List.zipWith_cons_cons, List.sum_cons]
    have e : ((x0 ++ (x ++ xs.flatten)).drop pre.sum).take x.length = x := by
      rw [← hx0, List.drop_left, List.take_left]
    rw [e]
    simp only [bind, Except.bind, hc, hcr, this]
    rw [add_assoc]

/-- C30: the value of a stack is the sum of the values of its blocks. -/
theorem C30_vstack_call (G : ListOp → List ℝ → ℝ) (ops : List ListOp) (xs : List (List ℝ))
    (h : List.Forall₂ (fun op x => ∃ c, op.call x = .ok c ∧ c.toReal = G op x) ops xs) :
    VStack.call ops (.nn (xs.map List.length)) xs.flatten = .ok (.num (List.zipWith G ops xs).sum) := by
  have hlen : xs.flatten.length = (xs.map List.length).sum := List.length_flatten
  have := callLoop_sum G ops xs h [] [] 0 rfl
  simp only [List.nil_append, List.length_nil, zero_add] at this
  simp only [VStack.call, StackBy.nx, hlen, ne_eq, not_true, if_false, this]
  rfl

/-- C30 refuted for the `hasgrad` flag: a stack announces a gradient as soon as one block has one, also when another block has none. -/
theorem C30_hasgrad_refuted (ops : List ListOp) (h1 : ∃ op ∈ ops, op.hasgrad = true) (_h2 : ∃ op ∈ ops, op.hasgrad = false) : VStack.hasgrad ops = true := by
  simpa [VStack.hasgrad] using h1

/-- C30: when all blocks (at least one) have a gradient the stack announces one, when none has one it does not. -/
theorem C30_hasgrad_partial (ops : List ListOp) : (ops ≠ [] → (∀ op ∈ ops, op.hasgrad = true) → VStack.hasgrad ops = true) ∧ ((∀ op ∈ ops, op.hasgrad = false) → VStack.hasgrad ops = false) := by
  constructor
  · intro hne h
    obtain ⟨op, hop⟩ := List.exists_mem_of_ne_nil ops hne
    exact List.any_eq_true.2 ⟨op, hop, h op hop⟩
  · intro h
    exact List.any_eq_false.2 fun op hop => by simp [h op hop]

/-- C30: arrays of the wrong size are rejected by `__call__`, `prox` and `grad`; so is a construction without block description, and a
different number of operators and restrictions. -/
theorem C30_vstack_rejects (ops : List ListOp) (b : StackBy) (x : List ℝ) (hx : x.length ≠ b.nx) (τ : ℝ) :
    VStack.call ops b x = .error .valueError ∧ VStack.prox ops b x τ = .error .valueError ∧
      VStack.grad ops b x = .error .valueError ∧ VStack.init none none = .error .valueError := by
  refine ⟨by simp [VStack.call, hx], ?_, by simp [VStack.grad, VStack.apply, hx], rfl⟩
  unfold VStack.prox checkTau
  split_ifs
  · rfl
  · simp [VStack.apply, hx]

/-- C30: with restrictions, a number of operators different from the number of index lists ends in an exception. -/
theorem C30_vstack_restr_count (m : ListOp → List ℝ → Py (List ℝ)) (x : List ℝ) (ops : List ListOp) (iavas : List (List ℕ)) (f : List ℝ)
    (h : ops.length ≠ iavas.length) : ∀ p, VStack.scatterLoop m x ops iavas f ≠ .ok p := by
  induction ops generalizing iavas f with
  | nil =>
    cases iavas with
    | nil => exact absurd rfl h
    | cons i is => intro p; simp [VStack.scatterLoop]
  | cons op ops ih =>
    cases iavas with
    | nil => intro p; simp [VStack.scatterLoop]
    | cons i is =>
      intro p
      simp only [VStack.scatterLoop, bind, Except.bind]
      cases m op (VStack.gather i x) with
      | error e => simp
      | ok v =>
        simp only
        split_ifs
        · simp
        · exact ih is _ (by simpa using h) p

/-- C30, refutation: with fewer operators than sizes nothing is rejected and the output silently loses the trailing blocks. -/
theorem C30_vstack_missing_ops_refuted (ops : List ListOp) (hne : ops ≠ []) (xs ys : List (List ℝ)) (R : ListOp → List ℝ → List ℝ) (τ : ℝ)
    (hτ : 0 < τ) (h : List.Forall₂ (fun op x => op.prox x τ = .ok (R op x) ∧ (R op x).length = x.length) ops xs)
    (hy : 0 < ys.flatten.length) :
    ∃ p, VStack.prox ops (.nn ((xs ++ ys).map List.length)) (xs ++ ys).flatten τ = .ok p ∧ p.length < (xs ++ ys).flatten.length := by
  have hlen : (xs ++ ys).flatten.length = ((xs ++ ys).map List.length).sum := List.length_flatten
  have key : ∀ (ops : List ListOp) (xs : List (List ℝ)),
      List.Forall₂ (fun op x => op.prox x τ = .ok (R op x) ∧ (R op x).length = x.length) ops xs →
      ∀ (pre : List ℕ) (x0 : List ℝ), x0.length = pre.sum →
        VStack.hstack (pre ++ (xs ++ ys).map List.length) (fun op v => op.prox v τ) (x0 ++ (xs ++ ys).flatten) ops pre.length =
          .ok (List.zipWith R ops xs).flatten ∧ (List.zipWith R ops xs).flatten.length = xs.flatten.length := by
    intro ops xs h
    induction h with
    | nil => intro pre x0 _; exact ⟨rfl, rfl⟩
    | @cons op x ops xs hop hrest ih =>
      intro pre x0 hx0
      obtain ⟨h1, h2⟩ := ih (pre ++ [x.length]) (x0 ++ x) (by simp [hx0])
      simp only [List.append_assoc, List.singleton_append, List.length_append, List.length_singleton] at h1
      constructor
      · simp only [VStack.hstack, List.cons_append, List.map_cons, slice_eq, List.flatten_cons, List.zipWith_cons_cons]
        have e : ((x0 ++ (x ++ (xs ++ ys).flatten)).drop pre.sum).take x.length = x := by
          rw [← hx0, List.drop_left, List.take_left]
        rw [e]
        simp only [bind, Except.bind, hop.1, h1, pure, Except.pure]
      · simp only [List.zipWith_cons_cons, List.flatten_cons, List.length_append, hop.2, h2]
  obtain ⟨h1, h2⟩ := key ops xs h [] [] rfl
  refine ⟨(List.zipWith R ops xs).flatten, ?_, ?_⟩
  · simp only [VStack.prox, checkTau_pos hτ, VStack.apply, StackBy.nx, hlen]
    simpa [hne] using h1
  · rw [h2, List.flatten_append, List.length_append]; omega

/-! ### Restrictions -/

lemma scatter_length (f : List ℝ) (iava : List ℕ) (v : List ℝ) : (VStack.scatter f iava v).length = f.length := by
  unfold VStack.scatter
  generalize iava.zip v = l
  induction l generalizing f with
  | nil => rfl
  | cons a l ih => rw [List.foldl_cons, ih]; simp

lemma scatter_notMem (f : List ℝ) (iava : List ℕ) (v : List ℝ) (j : ℕ) (hj : j ∉ iava) :
    (VStack.scatter f iava v).getD j 0 = f.getD j 0 := by
  induction iava generalizing f v with
  | nil => rfl
  | cons i is ih =>
    cases v with
    | nil => rfl
    | cons a v =>
      simp only [List.mem_cons, not_or] at hj
      have := ih (f.set i a) v hj.2
      simp only [VStack.scatter, List.zip_cons_cons, List.foldl_cons] at this ⊢
      rw [this]
      simp [List.getD_eq_getElem?_getD, List.getElem?_set_ne (Ne.symm hj.1)]

lemma gather_scatter (f : List ℝ) (iava : List ℕ) (v : List ℝ) (hnd : iava.Nodup) (hr : ∀ i ∈ iava, i < f.length)
    (hl : v.length = iava.length) : VStack.gather iava (VStack.scatter f iava v) = v := by
  induction iava generalizing f v with
  | nil => cases v with
    | nil => rfl
    | cons => simp at hl
  | cons i is ih =>
    cases v with
    | nil => simp at hl
    | cons a v =>
      have hnd' := List.nodup_cons.1 hnd
      have h1 := ih (f.set i a) v hnd'.2 (fun j hj => by simpa using hr j (List.mem_cons_of_mem _ hj)) (by simpa using hl)
      have h2 := scatter_notMem (f.set i a) is v i hnd'.1
      simp only [VStack.scatter, List.zip_cons_cons, List.foldl_cons, VStack.gather, List.map_cons] at h1 h2 ⊢
      rw [h1, h2]
      have := hr i List.mem_cons_self
      simp [List.getD_eq_getElem?_getD, this]

/-- Entries that belong to no block are set to zero, whatever the operators do. -/
lemma scatterLoop_notMem (m : ListOp → List ℝ → Py (List ℝ)) (x : List ℝ) (ops : List ListOp) (iavas : List (List ℕ)) (f p : List ℝ)
    (h : VStack.scatterLoop m x ops iavas f = .ok p) (j : ℕ) (hj : j ∉ iavas.flatten) : p.getD j 0 = f.getD j 0 ∧ p.length = f.length := by
  induction ops generalizing iavas f with
  | nil =>
    cases iavas with
    | nil => simp only [VStack.scatterLoop] at h; cases h; exact ⟨rfl, rfl⟩
    | cons i is => simp [VStack.scatterLoop] at h
  | cons op ops ih =>
    cases iavas with
    | nil => simp [VStack.scatterLoop] at h
    | cons i is =>
      simp only [VStack.scatterLoop, bind, Except.bind] at h
      cases hm : m op (VStack.gather i x) with
      | error e => rw [hm] at h; simp at h
      | ok v =>
        rw [hm] at h
        simp only at h
        split_ifs at h
        simp only [List.flatten_cons, List.mem_append, not_or] at hj
        obtain ⟨h1, h2⟩ := ih is _ h hj.2
        exact ⟨h1.trans (scatter_notMem f i v j hj.1), h2.trans (scatter_length f i v)⟩

/-- C30, refutation: nothing checks that the restrictions cover the array; an entry that belongs to no block (the size test only compares
the total number of indices, so another index must be repeated) is replaced by zero. -/
theorem C30_vstack_overlap_refuted (ops : List ListOp) (iavas : List (List ℕ)) (x p : List ℝ) (τ : ℝ) (hτ : 0 < τ)
    (h : VStack.prox ops (.restr iavas) x τ = .ok p) (j : ℕ) (hjx : j < x.length) (hj : j ∉ iavas.flatten) : p.getD j 0 = 0 := by
  simp only [VStack.prox, checkTau_pos hτ, VStack.apply] at h
  split_ifs at h
  have := (scatterLoop_notMem _ _ _ _ _ _ h j hj).1
  rw [this]
  simp [List.getD_eq_getElem?_getD, hjx]

lemma scatterLoop_isProx {τ : ℝ} (hτ : 0 < τ) (x : List ℝ) (ops : List ListOp) (Bs : List (List ℕ × XFun (List ℝ)))
    (h : List.Forall₂ (fun op B => ListProxExact op B.1.length B.2) ops Bs) :
    ∀ f : List ℝ, ((Bs.map Prod.fst).flatten).Nodup → (∀ i ∈ (Bs.map Prod.fst).flatten, i < f.length) →
      ∃ p, VStack.scatterLoop (fun op v => op.prox v τ) x ops (Bs.map Prod.fst) f = .ok p ∧ p.length = f.length ∧
        ∀ B ∈ Bs, LIsProx B.2 τ (pick B.1 x) (pick B.1 p) := by
  induction h with
  | nil => intro f _ _; exact ⟨f, rfl, rfl, by simp⟩
  | @cons op B ops Bs hop hrest ih =>
    intro f hnd hr
    simp only [List.map_cons, List.flatten_cons] at hnd hr
    rw [List.nodup_append] at hnd
    obtain ⟨v, hv, hvp⟩ := hop (VStack.gather B.1 x) τ (by simp [VStack.gather]) hτ
    have hvl : v.length = B.1.length := by rw [hvp.1]; simp [VStack.gather]
    obtain ⟨p, hp, hpl, hpB⟩ := ih (VStack.scatter f B.1 v) hnd.2.1 fun i hi => by
      rw [scatter_length]; exact hr i (List.mem_append_right _ hi)
    refine ⟨p, ?_, ?_, ?_⟩
    · simp only [List.map_cons, VStack.scatterLoop, bind, Except.bind, hv, hvl, ne_eq, not_true, if_false, hp]
    · rw [hpl, scatter_length]
    · intro B' hB'
      rcases List.mem_cons.1 hB' with rfl | hB'
      · have e : pick B'.1 p = v := by
          rw [← gather_scatter f B'.1 v hnd.1 (fun i hi => hr i (List.mem_append_left _ hi)) hvl]
          unfold pick VStack.gather
          refine List.map_congr_left fun i hi => ?_
          exact (scatterLoop_notMem _ _ _ _ _ _ hp i fun hi' => hnd.2.2 i hi i hi' rfl).1
        rw [e]; exact hvp
      · exact hpB B' hB'

lemma sqd_eq_range (y x : List ℝ) (h : y.length = x.length) :
    sqd y x = ((List.range x.length).map fun i => (y.getD i 0 - x.getD i 0) ^ 2).sum := by
  unfold sqd
  congr 1
  apply List.ext_getElem
  · simp [h]
  · intro i h1 h2
    simp only [List.length_zipWith, h, min_self] at h1
    simp [List.getD_eq_getElem?_getD, h1, h ▸ h1]

lemma sqd_pick (idx : List ℕ) (y x : List ℝ) : sqd (pick idx y) (pick idx x) = (idx.map fun i => (y.getD i 0 - x.getD i 0) ^ 2).sum := by
  unfold sqd pick
  rw [List.zipWith_map_left, List.zipWith_map_right, List.zipWith_self]

lemma sqd_blocks (Bs : List (List ℕ × XFun (List ℝ))) (y x : List ℝ) (h : y.length = x.length)
    (hperm : ((Bs.map Prod.fst).flatten).Perm (List.range x.length)) :
    sqd y x = (Bs.map fun B => sqd (pick B.1 y) (pick B.1 x)).sum := by
  rw [sqd_eq_range y x h, ← (hperm.map _).sum_eq, List.map_flatten, List.sum_flatten, List.map_map, List.map_map]
  simp only [sqd_pick]
  rfl

/-- C30, partial: with restrictions whose index lists partition the array, in any order, `prox` is the proximal map of
the sum of the block functions.  Missing: index lists that overlap, see `C30_vstack_overlap_refuted`. -/
theorem C30_vstack_restr_prox_partial (ops : List ListOp) (Bs : List (List ℕ × XFun (List ℝ)))
    (h : List.Forall₂ (fun op B => ListProxExact op B.1.length B.2) ops Bs) (x : List ℝ)
    (hperm : ((Bs.map Prod.fst).flatten).Perm (List.range x.length)) (τ : ℝ) (hτ : 0 < τ) :
    ∃ p, VStack.prox ops (.restr (Bs.map Prod.fst)) x τ = .ok p ∧ LIsProx (stackR Bs) τ x p := by
  have hnd : ((Bs.map Prod.fst).flatten).Nodup := hperm.nodup_iff.2 List.nodup_range
  obtain ⟨p, hp, hpl, hpB⟩ := scatterLoop_isProx hτ x ops Bs h (List.replicate x.length 0) hnd fun i hi => by
    have := hperm.mem_iff.1 hi
    simpa using this
  rw [List.length_replicate] at hpl
  have hlen : x.length = ((Bs.map Prod.fst).map List.length).sum := by
    rw [← List.length_flatten, hperm.length_eq, List.length_range]
  refine ⟨p, ?_, hpl, fun B hB => (hpB B hB).2.1, fun y hy hyd => ?_⟩
  · simp only [VStack.prox, checkTau_pos hτ, VStack.apply, StackBy.nx, ← hlen, ne_eq, not_true, if_false, hp]
  · simp only [stackR]
    rw [sqd_blocks Bs p x hpl hperm, sqd_blocks Bs y x hy hperm]
    have e : ∀ z : List ℝ, (Bs.map fun B => B.2.val (pick B.1 z)).sum +
        (Bs.map fun B => sqd (pick B.1 z) (pick B.1 x)).sum / (2 * τ) =
        (Bs.map fun B => B.2.val (pick B.1 z) + sqd (pick B.1 z) (pick B.1 x) / (2 * τ)).sum := by
      intro z
      induction Bs with
      | nil => simp
      | cons B Bs ih2 => 
        simp only [List.map_cons, List.sum_cons, add_div]
        have : ∀ (L : List (List ℕ × XFun (List ℝ))), (L.map fun B => B.2.val (pick B.1 z)).sum +
          (L.map fun B => sqd (pick B.1 z) (pick B.1 x)).sum / (2 * τ) =
          (L.map fun B => B.2.val (pick B.1 z) + sqd (pick B.1 z) (pick B.1 x) / (2 * τ)).sum := by
          intro L
          induction L with
          | nil => simp
          | cons B L ih3 => simp only [List.map_cons, List.sum_cons, add_div]; linarith
        linarith [this Bs]
    rw [e p, e y]
    apply List.sum_le_sum
    intro B hB
    exact (hpB B hB).2.2 (pick B.1 y) (by simp [pick]) (hyd B hB)

/-- The operator of the zero function. -/
noncomputable def zeroListOp : ListOp := ⟨fun _ => .ok (.num 0), fun x τ => checkTau τ (.ok x), fun x => .ok (x.map fun _ => 0), true⟩

/-- The hypotheses are met by concrete stacks: blocks of sizes 2, 1 and a partition in a scrambled order. -/
example : ListProxExact zeroListOp 2 ⟨Set.univ, fun _ => 0⟩ := by
  intro x τ _ hτ
  refine ⟨x, by simp [zeroListOp, checkTau_pos hτ], rfl, trivial, fun y _ _ => ?_⟩
  have h0 : sqd x x = 0 := by
    unfold sqd; rw [List.zipWith_self]; simp
  have h1 : 0 ≤ sqd y x / (2 * τ) := by
    apply div_nonneg _ (by positivity)
    apply List.sum_nonneg
    intro a ha
    obtain ⟨i, hi, rfl⟩ := List.mem_iff_getElem.1 ha
    simp only [List.getElem_zipWith]
    positivity
  simp only [h0, zero_div]; linarith

example : ([[2, 0], [1]] : List (List ℕ)).flatten.Perm (List.range 3) := by decide

/-- Two restrictions both selecting entry 0 of a two-entry array pass the size test: the second entry is lost. -/
example : VStack.prox [zeroListOp, zeroListOp] (.restr [[0], [0]]) [5, 7] 1 = .ok [5, 0] := by
  simp [VStack.prox, checkTau, VStack.apply, StackBy.nx, VStack.scatterLoop, VStack.gather, VStack.scatter, zeroListOp, bind, Except.bind,
    not_le.2 (one_pos (α := ℝ))]

/-! ## C31 -/

variable {E F : Type} [NormedAddCommGroup E] [InnerProductSpace ℝ E] [NormedAddCommGroup F] [InnerProductSpace ℝ F]

lemma orth_core {G : XFun F} (Q : LinOp E F) {α τ : ℝ} (hα : 0 < α) (hτ : 0 < τ) (hQ : ∀ y, Q.matvec (Q.rmatvec y) = α • y) (b : F) (x : E) {p : F}
    (hp : IsProx G (α * τ) (Q.matvec x + b) p) :
    IsProx (G.comp fun x => Q.matvec x + b) τ x (x - (1 / α) • Q.rmatvec (Q.matvec x + b - p)) := by
  set z := x - (1 / α) • Q.rmatvec (Q.matvec x + b - p) with hz
  have hQz : Q.matvec z + b = p := by
    rw [hz, map_sub, map_smul, hQ, smul_smul, one_div, inv_mul_cancel₀ hα.ne', one_smul]; abel
  have hadj : ∀ y, ‖Q.rmatvec y‖ ^ 2 = α * ‖y‖ ^ 2 := by
    intro y
    rw [← real_inner_self_eq_norm_sq, ← Q.dot, hQ, real_inner_smul_left, real_inner_self_eq_norm_sq]
  have hcontr : ∀ v, ‖Q.matvec v‖ ^ 2 ≤ α * ‖v‖ ^ 2 := by
    intro v
    have h1 : ‖Q.matvec v‖ ^ 2 = ⟪v, Q.rmatvec (Q.matvec v)⟫ := by rw [← Q.dot, real_inner_self_eq_norm_sq]
    have h2 := real_inner_le_norm v (Q.rmatvec (Q.matvec v))
    have h3 := hadj (Q.matvec v)
    have h4 : (‖Q.matvec v‖ ^ 2) ^ 2 ≤ ‖v‖ ^ 2 * (α * ‖Q.matvec v‖ ^ 2) := by
      rw [← h3, ← mul_pow]
      exact pow_le_pow_left₀ (by positivity) (h1 ▸ h2) 2
    by_cases h0 : ‖Q.matvec v‖ ^ 2 = 0
    · rw [h0]; positivity
    · have h5 : 0 < ‖Q.matvec v‖ ^ 2 := lt_of_le_of_ne (sq_nonneg _) (Ne.symm h0)
      nlinarith
  refine ⟨?_, fun w hw => ?_⟩
  · show Q.matvec z + b ∈ G.dom
    rw [hQz]; exact hp.1
  · have h1 := hp.2 (Q.matvec w + b) hw
    simp only [proxObj, XFun.comp, hQz] at h1 ⊢
    have hzx : ‖z - x‖ ^ 2 = (1 / α) * ‖p - (Q.matvec x + b)‖ ^ 2 := by
      rw [hz, sub_sub_cancel_left, norm_neg, norm_smul, mul_pow, hadj, norm_sub_rev, Real.norm_eq_abs, sq_abs]
      field_simp
    have hwx : (1 / α) * ‖Q.matvec w + b - (Q.matvec x + b)‖ ^ 2 ≤ ‖w - x‖ ^ 2 := by
      have h2 : Q.matvec w + b - (Q.matvec x + b) = Q.matvec (w - x) := by rw [map_sub]; abel
      rw [h2, one_div, inv_mul_le_iff₀ hα]
      exact hcontr _
    rw [hzx]
    have e : ∀ t : ℝ, 1 / α * t / (2 * τ) = t / (2 * (α * τ)) := by intro t; field_simp
    rw [e]
    have h3 : ‖Q.matvec w + b - (Q.matvec x + b)‖ ^ 2 / (2 * (α * τ)) ≤ ‖w - x‖ ^ 2 / (2 * τ) := by
      rw [← e]; exact div_le_div_of_nonneg_right hwx (by positivity)
    linarith

/-- C31: for *any* function (convex or not) whose `prox` is exact, `Orthogonal(f, Q, partial=True, b, alpha)` with
`Q Q^H = alpha I`, `alpha > 0`, computes the proximal map of `x -> f(Q x + b)`. -/
theorem C31_orthogonal_semi (f : ProxOp F) (G : XFun F) (hf : ProxExact f G) (Q : LinOp E F) (b : F) (α : ℝ) (hα : 0 < α)
    (hQ : ∀ y, Q.matvec (Q.rmatvec y) = α • y) : ProxExact (Orthogonal f Q true b α) (G.comp fun x => Q.matvec x + b) := by
  intro x τ hτ
  obtain ⟨p, hp, hpp⟩ := hf (Q.matvec x + b) (α * τ) (mul_pos hα hτ)
  refine ⟨_, by
    rw [prox_of_some (f := Orthogonal f Q true b α) rfl]
    simp only [checkTau_pos hτ, if_true, if_neg hα.ne', hp]; rfl, ?_⟩
  have := orth_core Q hα hτ hQ b x hpp
  convert this using 1
  simp only [map_add, map_sub, smul_add, smul_sub, smul_smul]
  rw [one_div, inv_mul_cancel₀ hα.ne', one_smul]; abel

/-- C31: with an orthogonal `Q` (`Q Q^H = I` and `Q^H Q = I`) the default variant computes the proximal map, whatever
`alpha` is. -/
theorem C31_orthogonal_full (f : ProxOp F) (G : XFun F) (hf : ProxExact f G) (Q : LinOp E F) (b : F) (α : ℝ)
    (hQ : ∀ y, Q.matvec (Q.rmatvec y) = y) (hQ' : ∀ x, Q.rmatvec (Q.matvec x) = x) :
    ProxExact (Orthogonal f Q false b α) (G.comp fun x => Q.matvec x + b) := by
  intro x τ hτ
  obtain ⟨p, hp, hpp⟩ := hf (Q.matvec x + b) τ hτ
  refine ⟨_, by
    rw [prox_of_some (f := Orthogonal f Q false b α) rfl]
    simp only [checkTau_pos hτ, hp, Bool.false_eq_true, if_false]; rfl, ?_⟩
  have := orth_core Q one_pos hτ (fun y => by rw [hQ, one_smul]) b x (by rw [one_mul]; exact hpp)
  convert this using 1
  simp only [map_add, map_sub, hQ', one_div, inv_one, one_smul]; abel

/-- C31: the value is `f(Q x + b)`. -/
theorem C31_orthogonal_call (f : ProxOp F) (Q : LinOp E F) (pt : Bool) (b : F) (α : ℝ) (x : E) :
    (Orthogonal f Q pt b α).call x = f.call (Q.matvec x + b) := rfl

/-- Scaling by `2` is partially orthogonal with `alpha = 4`. -/
example : ∃ Q : LinOp E E, ∀ y, Q.matvec (Q.rmatvec y) = (4 : ℝ) • y :=
  ⟨⟨(2:ℝ) • LinearMap.id, (2:ℝ) • LinearMap.id, fun x y => by simp [real_inner_smul_left, real_inner_smul_right]⟩, fun y => by
    simp only [LinearMap.smul_apply, LinearMap.id_apply, smul_smul]; norm_num⟩

end Verif
