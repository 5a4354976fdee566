import Verif.Props.Dykstra

/-! # C38, C39, C74: Sum and GenericIntersection -/

open scoped RealInnerProductSpace
open Filter Topology

set_option linter.unusedSectionVars false

namespace Verif

variable {E : Type} [NormedAddCommGroup E] [InnerProductSpace ℝ E] {m : ℕ}

/-! ## Evaluation -/

/-- The number an operator contributes to the sum (specification): booleans contribute nothing. -/
def CallVal.numPart : CallVal → ℝ
  | .num v => v
  | .bool _ => 0

lemma py_bind_ok {α β : Type} {a : Py α} {f : α → β} {y : β} (h : (do let r ← a; pure (f r)) = (.ok y : Py β)) : ∃ r, a = .ok r ∧ f r = y := by
  cases a with
  | error e => cases h
  | ok r => exact ⟨r, rfl, by injection h⟩

lemma combine_false {l : List CallVal} (h : CallVal.bool false ∈ l) : Sum.combine l = .bool false := by
  unfold Sum.combine
  rw [if_pos]
  simp only [List.all_filterMap, Bool.not_eq_true, List.all_eq_false]
  exact ⟨_, h, by simp [CallVal.asBool?]⟩

open Classical in
lemma combine_ok {l : List CallVal} (h : CallVal.bool false ∉ l) :
    Sum.combine l = if ∃ v, CallVal.num v ∈ l then CallVal.num (l.map CallVal.numPart).sum else CallVal.bool true := by
  classical
  unfold Sum.combine
  have h1 : (l.filterMap CallVal.asBool?).all id = true := by
    rw [List.all_filterMap, List.all_eq_true]
    intro v hv
    cases v with
    | num v => rfl
    | bool b => cases b with
      | false => exact absurd hv h
      | true => rfl
  simp only [h1, not_true_eq_false, if_false]
  have h2 : (l.filterMap CallVal.asNum?).sum = (l.map CallVal.numPart).sum := by
    clear h h1
    induction l with
    | nil => rfl
    | cons a l ih =>
      cases a with
      | num v => simp [CallVal.numPart, CallVal.asNum?, ih]
      | bool b => rw [List.filterMap_cons_none rfl, ih]; simp [CallVal.numPart]
  have h3 : (l.filterMap CallVal.asNum?) ≠ [] ↔ ∃ v, CallVal.num v ∈ l := by
    rw [Ne, List.filterMap_eq_nil_iff]
    push Not
    constructor
    · rintro ⟨a, ha, hb⟩
      cases a with
      | num v => exact ⟨v, ha⟩
      | bool b => exact absurd rfl hb
    · rintro ⟨v, hv⟩; exact ⟨_, hv, by simp [CallVal.asNum?]⟩
  simp only [h2]
  by_cases h4 : ∃ v, CallVal.num v ∈ l
  · rw [if_pos (h3.2 h4), if_pos h4]
  · rw [if_neg (fun hh => h4 (h3.1 hh)), if_neg h4]

/-- C38: the value of a Sum object in terms of the answers of its operators, for any number of operators: `False` exactly if some boolean answer is `False`; otherwise the
sum of the numeric answers if there are any, and `True` if there are none. -/
theorem C38_sum_call (c : SumCfg E m) (x : E) (v : Fin m → CallVal) (hv : ∀ i, (c.ops i).call x = .ok (v i)) :
    ((∃ i, v i = .bool false) → Sum.call c x = .ok (.bool false)) ∧
    ((∀ i, v i ≠ .bool false) → (∃ i r, v i = .num r) → Sum.call c x = .ok (.num (∑ i, (v i).numPart))) ∧
    ((∀ i, v i = .bool true) → Sum.call c x = .ok (.bool true)) := by
  classical
  have e : Sum.call c x = .ok (Sum.combine (List.ofFn v)) := by
    unfold Sum.call
    rw [mapPy_ok hv]; rfl
  rw [e]
  refine ⟨?_, ?_, ?_⟩
  · rintro ⟨i, hi⟩
    rw [combine_false (List.mem_ofFn.2 ⟨i, hi⟩)]
  · rintro h ⟨i, r, hi⟩
    rw [combine_ok (fun hh => by obtain ⟨j, hj⟩ := List.mem_ofFn.1 hh; exact h j hj), if_pos ⟨r, List.mem_ofFn.2 ⟨i, hi⟩⟩]
    simp [List.map_ofFn, List.sum_ofFn]
  · intro h
    rw [combine_ok (fun hh => by obtain ⟨j, hj⟩ := List.mem_ofFn.1 hh; rw [h j] at hj; cases hj), if_neg]
    rintro ⟨r, hr⟩
    obtain ⟨j, hj⟩ := List.mem_ofFn.1 hr
    rw [h j] at hj; cases hj

/-- `f(x)` agrees with the extended valued function `F`: either `f` returns floats and `F` is finite everywhere, or `f` returns booleans and `F` is an indicator. -/
def Evaluates (f : ProxOp E) (F : XFun E) : Prop :=
  (∃ φ, EvaluatesNum f φ ∧ F = XFun.ofReal φ) ∨ ∃ C, EvaluatesIndicator f C ∧ F = XFun.indicator C

/-- C38: if every operator evaluates its function `F_i` (numbers or indicators in any combination), the Sum object evaluates `∑ F_i`: `False` exactly outside the domain,
the value of the sum inside it if some operator is numeric, and `True` inside if all are indicators. -/
theorem C38_sum_evaluates (c : SumCfg E m) (F : Fin m → XFun E) (h : ∀ i, Evaluates (c.ops i) (F i)) (x : E) :
    ∃ v, Sum.call c x = .ok v ∧ (v = .bool false ↔ x ∉ (sumObj F).dom) ∧
      (x ∈ (sumObj F).dom → v = .num ((sumObj F).val x) ∨ (v = .bool true ∧ (sumObj F).val x = 0)) := by
  classical
  have hv : ∀ i, ∃ v, (c.ops i).call x = .ok v ∧ (v = .bool false ↔ x ∉ (F i).dom) ∧ (x ∈ (F i).dom → v.numPart = (F i).val x) := by
    intro i
    rcases h i with ⟨φ, h1, h2⟩ | ⟨C, h1, h2⟩
    · exact ⟨_, h1 x, by simp [h2, XFun.ofReal], fun _ => by simp [h2, XFun.ofReal, CallVal.numPart]⟩
    · obtain ⟨b, hb, hb'⟩ := h1 x
      refine ⟨_, hb, ?_, fun _ => by simp [h2, XFun.indicator, CallVal.numPart]⟩
      rw [h2]
      simp only [XFun.indicator]
      rw [← hb']; cases b <;> simp
  choose v hv hb hn using hv
  obtain ⟨c1, c2, c3⟩ := C38_sum_call c x v hv
  by_cases hx : x ∈ (sumObj F).dom
  · have h1 : ∀ i, v i ≠ .bool false := fun i hi => (hb i).1 hi (hx i)
    by_cases h2 : ∃ i r, v i = .num r
    · refine ⟨_, c2 h1 h2, by simp [hx], fun _ => Or.inl ?_⟩
      simp only [sumObj]
      congr 1
      exact Finset.sum_congr rfl fun i _ => hn i (hx i)
    · push Not at h2
      have h3 : ∀ i, v i = .bool true := fun i => by
        cases hvi : v i with
        | num r => exact absurd hvi (h2 i r)
        | bool b => cases b with
          | false => exact absurd hvi (h1 i)
          | true => rfl
      refine ⟨_, c3 h3, by simp [hx], fun _ => Or.inr ⟨rfl, ?_⟩⟩
      simp only [sumObj]
      exact Finset.sum_eq_zero fun i _ => by rw [← hn i (hx i), h3 i]; rfl
  · have : ∃ i, v i = .bool false := by
      have : ∃ i, x ∉ (F i).dom := by
        by_contra hh; push Not at hh; exact hx hh
      obtain ⟨i, hi⟩ := this
      exact ⟨i, (hb i).2 hi⟩
    exact ⟨_, c1 this, by simp [hx], fun hh => absurd hh hx⟩

/-- C38: an empty list of operators is rejected when the object is built, whatever the weights. -/
theorem C38_empty_rejected (w : Option SumState) : ∃ e, Sum.init 0 w = .error e := by
  cases w with
  | none => exact ⟨_, rfl⟩
  | some s => exact ⟨_, rfl⟩

/-- C38: a non-positive step is rejected for any number of operators, without touching the object. -/
theorem C38_sum_rejects (c : SumCfg E m) (mx : E → ℝ) (s : SumState) (x : E) (τ : ℝ) (h : τ ≤ 0) : Sum.prox c mx s x τ = (.error .valueError, s) := by
  simp [Sum.prox, h]

/-- C38: with one operator, `prox` is the proximal map of that operator. -/
theorem C38_single {F : XFun E} (c : SumCfg E 1) (hf : ProxExact (c.ops 0) F) (mx : E → ℝ) (s : SumState) (x : E) {τ : ℝ} (h : 0 < τ) :
    ∃ p, Sum.prox c mx s x τ = (.ok p, s) ∧ IsProx F τ x p := by
  obtain ⟨p, hp, hp'⟩ := hf x τ h
  exact ⟨p, by simp only [Sum.prox, not_le.2 h, if_false, Sum.dispatch, hp], hp'⟩

lemma moreProx_of_weights (c : SumCfg E m) (hm : 2 ≤ m) (mx : E → ℝ) (s : SumState) (w : Fin m → ℝ) (hw : s.w = List.ofFn w) (hpos : ∀ i, 0 < w i) (x : E) (τ : ℝ)
    : (Sum.moreProx c mx s x τ).1 = (do
        let r ← parallelDykstraProx x (fun i => (c.ops i).prox) (List.ofFn w) (List.ofFn fun i => if c.useOriginalTau then τ else τ / w i) c.niter c.tol mx
        pure r.x) := by
  have ht : Sum.taus c s τ = .ok (List.ofFn fun i => if c.useOriginalTau then τ else τ / w i) := by
    unfold Sum.taus
    by_cases h : c.useOriginalTau
    · simp [h, hw, List.ofFn_const]
    · have h0 : (0 : ℝ) ∉ s.w := by
        rw [hw, List.mem_ofFn]; rintro ⟨i, hi⟩; exact (hpos i).ne' hi
      rw [if_neg h, if_neg h0, hw]
      simp [h, List.map_ofFn, Function.comp_def]
  unfold Sum.moreProx
  rw [if_neg (by omega), ht, hw]

lemma sum_prox_more (c : SumCfg E m) (hm : 3 ≤ m ∨ (m = 2 ∧ c.useParallel = true)) (mx : E → ℝ) (s : SumState) (x : E) {τ : ℝ} (hτ : 0 < τ) :
    Sum.prox c mx s x τ = Sum.moreProx c mx s x τ := by
  unfold Sum.prox
  rw [if_neg (not_le.2 hτ)]
  match m, c, hm with
  | 0, _, hm => omega
  | 1, _, hm => omega
  | 2, c, hm =>
    have : c.useParallel = true := by rcases hm with h | h; · omega
                                      exact h.2
    simp [Sum.dispatch, this]
  | k + 3, c, _ => rfl

/-- The object with another number of iterations and `tol = 0`. -/
def SumCfg.run (c : SumCfg E m) (n : ℕ) : SumCfg E m := { c with niter := n, tol := 0 }

lemma more_converges [ProperSpace E] [NeZero m] (c : SumCfg E m) (hm : 3 ≤ m ∨ (m = 2 ∧ c.useParallel = true)) {F : Fin m → XFun E} (hF : ∀ i, (F i).Convex)
    (hf : ∀ i, ProxExact (c.ops i) (F i)) (w : Fin m → ℝ) (hpos : ∀ i, 0 < w i) (s : SumState) (hw : s.w = List.ofFn w) (x0 : E) {τ : ℝ} (hτ : 0 < τ)
    (mx : E → ℝ) (hmx : ∀ v, 0 ≤ mx v) (p : E) (g : Fin m → E) (hg : ∀ i, IsSubgrad (F i) p (g i))
    (hp : p + ∑ i, (w i * (if c.useOriginalTau then τ else τ / w i) / ∑ j, w j) • g i = x0)
    (R : ℕ → E) (hR : ∀ n, (Sum.prox (c.run n) mx s x0 τ).1 = .ok (R n)) : Tendsto R atTop (𝓝 p) := by
  have hR' : ∀ n, ∃ r, parallelDykstraProx x0 (fun i => (c.ops i).prox) (List.ofFn w) (List.ofFn fun i => if c.useOriginalTau then τ else τ / w i) n 0 mx = .ok r ∧
      r.x = R n := by
    intro n
    have := hR n
    rw [sum_prox_more (c.run n) hm mx s x0 hτ, moreProx_of_weights (c.run n) (by omega) mx s w hw hpos] at this
    exact py_bind_ok this
  choose r hr hr' using hR'
  have ht : ∀ i, 0 < (if c.useOriginalTau then τ else τ / w i) := fun i => by
    have := hpos i
    split_ifs <;> positivity
  have := C37_weighted_converges (F := F) (proxs := fun i => (c.ops i).prox) hF hpos ht (fun i v => hf i v _ (ht i)) x0 mx hmx p g hg hp r hr
  exact this.congr hr'

/-- C38: with default options and no weights, for every number of operators (the serial and the parallel routine alike), the points returned converge, as the number of iterations
grows, to the proximal point of `τ ∑ f_i`. -/
theorem C38_default_converges [ProperSpace E] (c : SumCfg E m) (htau : c.useOriginalTau = false) {F : Fin m → XFun E} (hF : ∀ i, (F i).Convex)
    (hf : ∀ i, ProxExact (c.ops i) (F i)) (s : SumState) (hs : Sum.init m none = .ok s) (x0 : E) {τ : ℝ} (hτ : 0 < τ)
    (mx : E → ℝ) (hmx : ∀ v, 0 ≤ mx v) (p : E) (g : Fin m → E) (hg : ∀ i, IsSubgrad (F i) p (g i)) (hp : p + τ • ∑ i, g i = x0)
    (R : ℕ → E) (hR : ∀ n, (Sum.prox (c.run n) mx s x0 τ).1 = .ok (R n)) : IsUniqueProx (sumObj F) τ x0 p ∧ Tendsto R atTop (𝓝 p) := by
  constructor
  · refine isUniqueProx_of_subgrad hτ ?_
    rw [← hp, add_sub_cancel_left, smul_smul, one_div_mul_cancel hτ.ne', one_smul]
    exact sumObj_subgrad hg
  have hm0 : m ≠ 0 := by
    rintro rfl
    simp [Sum.init] at hs
  have hm0' : (m : ℝ) ≠ 0 := by exact_mod_cast hm0
  have hw : s.w = List.ofFn fun _ : Fin m => 1 / (m : ℝ) := by
    simp only [Sum.init, hm0, if_false] at hs
    cases hs
    simp [List.ofFn_const]
  have : NeZero m := ⟨hm0⟩
  have more : (3 ≤ m ∨ (m = 2 ∧ c.useParallel = true)) → Tendsto R atTop (𝓝 p) := fun hm => by
    refine more_converges c hm hF hf (fun _ => 1 / (m : ℝ)) (fun _ => by positivity) s hw x0 hτ mx hmx p g hg ?_ R hR
    rw [htau, ← hp, Finset.smul_sum]
    congr 1
    refine Finset.sum_congr rfl fun i _ => ?_
    congr 1
    simp
    field_simp
  match m, c, htau, F, hF, hf, hs, g, hg, hp, hR, hm0, more with
  | 0, _, _, _, _, _, _, _, _, _, _, hm0, _ => exact absurd rfl hm0
  | 1, c, _, F, hF, hf, hs, g, hg, hp, hR, _, _ =>
    have : ∀ n, R n = p := fun n => by
      obtain ⟨q, hq, hq'⟩ := C38_single (c.run n) (hf 0) mx s x0 hτ
      have e : q = R n := by
        have := hR n
        rw [hq] at this
        injection this
      rw [← e]
      have hpp : IsProx (F 0) τ x0 p := by
        refine isProx_of_subgrad hτ ?_
        rw [← hp, add_sub_cancel_left, smul_smul, one_div_mul_cancel hτ.ne', one_smul]
        simpa using hg 0
      exact IsProx.unique (hF 0) hτ hpp hq'
    rw [show R = fun _ => p from funext this]
    exact tendsto_const_nhds
  | 2, c, _, F, hF, hf, hs, g, hg, hp, hR, _, more =>
    by_cases hpar : c.useParallel = true
    · exact more (Or.inr ⟨rfl, hpar⟩)
    · have hR' : ∀ n, ∃ r, dykstraTwo x0 (fun v => (c.ops 0).prox v τ) (fun v => (c.ops 1).prox v τ) n 0 mx = .ok r ∧ r.x = R n := by
        intro n
        have := hR n
        simp only [Sum.prox, not_le.2 hτ, if_false, Sum.dispatch] at this
        rw [show (c.run n).useParallel = false by simpa [SumCfg.run] using hpar] at this
        simp only [Bool.false_eq_true, if_false] at this
        exact py_bind_ok this
      choose r hr hr' using hR'
      have := C37_two_converges (hF 0) (hF 1) hτ (fun v => hf 0 v τ hτ) (fun v => hf 1 v τ hτ) x0 mx hmx p (g 0) (g 1) (hg 0) (hg 1)
        (by simpa [Fin.sum_univ_two] using hp) r hr
      exact this.congr hr'
  | k + 3, _, _, _, _, _, _, _, _, _, _, _, more => exact more (Or.inl (by omega))

/-- C38: with weights summing to one and default steps, the parallel routine converges to the proximal point of `τ ∑ f_i` whatever the weights are. -/
theorem C38_weighted_converges [ProperSpace E] [NeZero m] (c : SumCfg E m) (hm : 3 ≤ m ∨ (m = 2 ∧ c.useParallel = true)) (htau : c.useOriginalTau = false)
    {F : Fin m → XFun E} (hF : ∀ i, (F i).Convex) (hf : ∀ i, ProxExact (c.ops i) (F i)) (w : Fin m → ℝ) (hpos : ∀ i, 0 < w i) (hw1 : ∑ i, w i = 1) (s : SumState)
    (hw : s.w = List.ofFn w) (x0 : E) {τ : ℝ} (hτ : 0 < τ) (mx : E → ℝ) (hmx : ∀ v, 0 ≤ mx v) (p : E) (g : Fin m → E) (hg : ∀ i, IsSubgrad (F i) p (g i))
    (hp : p + τ • ∑ i, g i = x0) (R : ℕ → E) (hR : ∀ n, (Sum.prox (c.run n) mx s x0 τ).1 = .ok (R n)) : Tendsto R atTop (𝓝 p) := by
  refine more_converges c hm hF hf w hpos s hw x0 hτ mx hmx p g hg ?_ R hR
  rw [htau, ← hp, Finset.smul_sum]
  congr 1
  refine Finset.sum_congr rfl fun i _ => ?_
  congr 1
  have := (hpos i).ne'
  simp [hw1]
  field_simp

/-- C38: with `use_original_tau`, the parallel routine converges to the proximal point of `τ ∑ w_i f_i` (weights normalised). -/
theorem C38_original_tau_converges [ProperSpace E] [NeZero m] (c : SumCfg E m) (hm : 3 ≤ m ∨ (m = 2 ∧ c.useParallel = true)) (htau : c.useOriginalTau = true)
    {F : Fin m → XFun E} (hF : ∀ i, (F i).Convex) (hf : ∀ i, ProxExact (c.ops i) (F i)) (w : Fin m → ℝ) (hpos : ∀ i, 0 < w i) (s : SumState)
    (hw : s.w = List.ofFn w) (x0 : E) {τ : ℝ} (hτ : 0 < τ) (mx : E → ℝ) (hmx : ∀ v, 0 ≤ mx v) (p : E) (g : Fin m → E) (hg : ∀ i, IsSubgrad (F i) p (g i))
    (hp : p + τ • ∑ i, (w i / ∑ j, w j) • g i = x0) (R : ℕ → E) (hR : ∀ n, (Sum.prox (c.run n) mx s x0 τ).1 = .ok (R n)) : Tendsto R atTop (𝓝 p) := by
  refine more_converges c hm hF hf w hpos s hw x0 hτ mx hmx p g hg ?_ R hR
  rw [htau, ← hp, Finset.smul_sum]
  congr 1
  refine Finset.sum_congr rfl fun i _ => ?_
  rw [smul_smul]
  congr 1
  simp
  ring

/-! ## GenericIntersection -/

/-- C38: the membership test of GenericIntersectionProx holds at every point of the intersection, and when it holds every set has a point close to `x`. -/
theorem C38_intersection_call {C : Fin m → Set E} {P : Fin m → E → Py E} (hP : ∀ i v, ∃ p, P i v = .ok p ∧ IsProj (C i) v p) (niter : ℕ) {tol : ℝ} (htol : 0 < tol)
    (par : Bool) (mx : E → ℝ) (hmx : mx 0 = 0) (x : E) :
    ∃ b, (GenericIntersectionProx P niter tol par mx).call x = .ok (.bool b) ∧ ((∀ i, x ∈ C i) → b = true) ∧
      (b = true → ∀ i, ∃ y ∈ C i, mx (x - y) < tol * 10) := by
  choose Q hQ hQ' using hP
  classical
  refine ⟨decide (∀ i, mx (x - Q i x) < tol * 10), ?_, ?_, ?_⟩
  · simp only [GenericIntersectionProx]
    rw [mapPy_ok fun i => hQ i x]
    simp only [Bind.bind, Except.bind, Pure.pure, Except.pure]
  · intro hx
    rw [decide_eq_true_eq]
    intro i
    have h1 := (hQ' i x).2 x (hx i)
    rw [sub_self, norm_zero] at h1
    rw [norm_le_zero_iff.1 h1, hmx]
    positivity
  · intro hb i
    rw [decide_eq_true_eq] at hb
    exact ⟨_, (hQ' i x).1, hb i⟩

/-- C38: the projection onto an intersection of no sets is refused; of one set it is the projection. -/
theorem C38_intersection_small (P0 : Fin 0 → E → Py E) {C : Set E} {P : Fin 1 → E → Py E} (hP : ∀ v, ∃ p, P 0 v = .ok p ∧ IsProj C v p) (niter : ℕ) (tol : ℝ)
    (par : Bool) (mx : E → ℝ) (x : E) : (GenericIntersectionProj P0 niter tol par mx x = .error .valueError) ∧
      ∃ p, GenericIntersectionProj P niter tol par mx x = .ok p ∧ IsProj C x p := ⟨rfl, hP x⟩

/-- C38: with two convex sets and the serial routine, GenericIntersectionProj converges (as the number of iterations grows, `tol = 0`) to the projection onto the intersection,
provided the projection has normals to the two sets summing to `x - p`. -/
theorem C38_intersection_converges [ProperSpace E] {C : Fin 2 → Set E} (hC : ∀ i, _root_.Convex ℝ (C i)) {P : Fin 2 → E → Py E}
    (hP : ∀ i v, ∃ p, P i v = .ok p ∧ IsProj (C i) v p) (mx : E → ℝ) (hmx : ∀ v, 0 ≤ mx v) (x p n1 n2 : E) (hp : ∀ i, p ∈ C i)
    (h1 : ∀ y ∈ C 0, ⟪n1, y - p⟫ ≤ 0) (h2 : ∀ y ∈ C 1, ⟪n2, y - p⟫ ≤ 0) (hn : p + (n1 + n2) = x) (R : ℕ → E)
    (hR : ∀ n, GenericIntersectionProj P n 0 false mx x = .ok (R n)) : IsUniqueProj (C 0 ∩ C 1) x p ∧ Tendsto R atTop (𝓝 p) := by
  have s1 : IsSubgrad (XFun.indicator (C 0)) p n1 := ⟨hp 0, fun y hy => by simp only [XFun.indicator]; linarith [h1 y hy]⟩
  have s2 : IsSubgrad (XFun.indicator (C 1)) p n2 := ⟨hp 1, fun y hy => by simp only [XFun.indicator]; linarith [h2 y hy]⟩
  constructor
  · rw [← isUniqueProj_iff_isUniqueProx one_pos]
    have : XFun.indicator (C 0 ∩ C 1) = (XFun.indicator (C 0)).add (XFun.indicator (C 1)) := by simp [XFun.indicator, XFun.add]
    rw [this]
    refine isUniqueProx_of_subgrad one_pos ?_
    rw [div_one, one_smul, ← hn, add_sub_cancel_left]
    exact add_subgrad s1 s2
  · have hR' : ∀ n, ∃ r, dykstraTwo x (P 0) (P 1) n 0 mx = .ok r ∧ r.x = R n := by
      intro n
      have := hR n
      simp only [GenericIntersectionProj, Bool.false_eq_true, if_false] at this
      exact py_bind_ok this
    choose r hr hr' using hR'
    have hex : ∀ i v, ∃ p, P i v = .ok p ∧ IsProx (XFun.indicator (C i)) 1 v p := fun i v => by
      obtain ⟨q, hq, hq'⟩ := hP i v
      exact ⟨q, hq, (isProj_iff_isProx one_pos).2 hq'⟩
    have := C37_two_converges (indicator_convex (hC 0)) (indicator_convex (hC 1)) one_pos (hex 0) (hex 1) x mx hmx p n1 n2 s1 s2 (by rw [one_smul, hn]) r hr
    exact this.congr hr'

/-! ## Repeated calls -/

/-- The state of a `Sum` object after a history of calls of `prox`. -/
noncomputable def Sum.after (c : SumCfg E m) (mx : E → ℝ) (s : SumState) (calls : List (E × ℝ)) : SumState :=
  calls.foldl (fun s q => (Sum.prox c mx s q.1 q.2).2) s

lemma normalise_of_sum_one {w : List ℝ} (h : w.sum = 1) : normalise w = w := by simp [normalise, h]

lemma sum_state (c : SumCfg E m) (mx : E → ℝ) (s : SumState) (h : s.isFloatArray = false ∨ s.w.sum = 1 ∨ m ≤ 1 ∨ (m = 2 ∧ c.useParallel = false)) (x : E) (τ : ℝ) :
    (Sum.prox c mx s x τ).2 = s := by
  have more : (s.isFloatArray = false ∨ s.w.sum = 1) → (Sum.moreProx c mx s x τ).2 = s := by
    intro h
    unfold Sum.moreProx
    by_cases h1 : m < 2
    · rw [if_pos h1]
    rw [if_neg h1]
    cases ht : Sum.taus c s τ with
    | error e => rfl
    | ok taus =>
      simp only
      by_cases hfl : s.isFloatArray = true
      · rw [if_pos hfl]
        rcases h with h | h
        · rw [h] at hfl; cases hfl
        · rw [normalise_of_sum_one h, ← hfl]
      · rw [if_neg hfl]
  unfold Sum.prox
  split_ifs with hτ
  · rfl
  match m, c, h, more with
  | 0, _, _, _ => rfl
  | 1, _, _, _ => rfl
  | 2, c, h, more =>
    simp only [Sum.dispatch]
    split_ifs with hp
    · refine more ?_
      rcases h with h | h | h | h
      · exact Or.inl h
      · exact Or.inr h
      · omega
      · rw [h.2] at hp; cases hp
    · rfl
  | k + 3, c, h, more =>
    refine more ?_
    rcases h with h | h | h | h
    · exact Or.inl h
    · exact Or.inr h
    · omega
    · omega

/-- C39: if the weights are left out, given as a list, or given as an array summing to one, or if the serial routine is used, no history of calls changes the object: the weights are
unmodified and every call answers as on a fresh object. -/
theorem C39_repeat_partial (c : SumCfg E m) (mx : E → ℝ) (s : SumState)
    (h : s.isFloatArray = false ∨ s.w.sum = 1 ∨ m ≤ 1 ∨ (m = 2 ∧ c.useParallel = false)) (calls : List (E × ℝ)) (x : E) (τ : ℝ) :
    (Sum.after c mx s calls).w = s.w ∧ (Sum.prox c mx (Sum.after c mx s calls) x τ).1 = (Sum.prox c mx s x τ).1 := by
  have : Sum.after c mx s calls = s := by
    induction calls with
    | nil => rfl
    | cons q l ih =>
      unfold Sum.after at ih ⊢
      rw [List.foldl_cons, sum_state c mx s h]
      exact ih
  rw [this]; exact ⟨rfl, rfl⟩

/-- C39: also for arrays not summing to one, all calls after the first that reaches the iterations agree: the weights are normalised once and for all. -/
theorem C39_later_calls_partial (c : SumCfg E m) (mx : E → ℝ) (s : SumState) (hs : s.w.sum ≠ 0) (x0 : E) (τ0 : ℝ) (calls : List (E × ℝ)) (x : E) (τ : ℝ) :
    let s1 := (Sum.prox c mx s x0 τ0).2
    s1 = s ∨ (Sum.prox c mx (Sum.after c mx s1 calls) x τ).1 = (Sum.prox c mx s1 x τ).1 := by
  intro s1
  by_cases h : s1 = s
  · exact Or.inl h
  right
  refine (C39_repeat_partial c mx s1 (Or.inr (Or.inl ?_)) calls x τ).2
  -- the only way for the state to change is normalisation
  have more : (Sum.moreProx c mx s x0 τ0).2 = s ∨ (Sum.moreProx c mx s x0 τ0).2 = ⟨normalise s.w, true⟩ := by
    unfold Sum.moreProx
    by_cases h1 : m < 2
    · rw [if_pos h1]; exact Or.inl rfl
    rw [if_neg h1]
    cases ht : Sum.taus c s τ0 with
    | error e => exact Or.inl rfl
    | ok taus =>
      simp only
      by_cases hfl : s.isFloatArray = true
      · rw [if_pos hfl]; exact Or.inr rfl
      · rw [if_neg hfl]; exact Or.inl rfl
  have key : s1 = s ∨ s1 = ⟨normalise s.w, true⟩ := by
    show (Sum.prox c mx s x0 τ0).2 = s ∨ (Sum.prox c mx s x0 τ0).2 = _
    unfold Sum.prox
    split_ifs with hτ
    · exact Or.inl rfl
    match m, c, more with
    | 0, _, _ => exact Or.inl rfl
    | 1, _, _ => exact Or.inl rfl
    | 2, c, more =>
      simp only [Sum.dispatch]
      split_ifs with hp
      · exact more
      · exact Or.inl rfl
    | k + 3, c, more => exact more
  rcases key with hk | hk
  · exact absurd hk h
  · rw [hk]; exact normalise_sum hs

/-! ## Equal operators: an explicit run -/

/-- `½ x²` on the line as an operator object: the proximal map is `x / (1 + τ)` (as `L2()` computes). -/
noncomputable def halfSq : ProxOp ℝ where
  call := fun x => pure (.num (x ^ 2 / 2))
  prox? := some fun x τ => checkTau τ (pure (x / (1 + τ)))
  proxdual? := none
  grad? := none
  hasgrad := false
  sigmame := 1

lemma halfSq_prox (x : ℝ) {τ : ℝ} (hτ : 0 < τ) : halfSq.prox x τ = .ok (x / (1 + τ)) := by
  simp only [ProxOp.prox, halfSq, checkTau, not_le.2 hτ, if_false]
  rfl

lemma scaledSq_prox {a : ℝ} (ha : 0 ≤ a) (x : ℝ) {τ : ℝ} (hτ : 0 < τ) : IsUniqueProx (XFun.ofReal fun x : ℝ => a * (x ^ 2 / 2)) τ x (x / (1 + a * τ)) := by
  refine isUniqueProx_of_subgrad hτ ⟨trivial, fun y _ => ?_⟩
  have h1 : 0 < 1 + a * τ := by positivity
  simp only [XFun.ofReal]
  set p := x / (1 + a * τ) with hp
  have hx : x = p * (1 + a * τ) := by rw [hp]; field_simp
  have e : (1 / τ) • (x - p) = a * p := by rw [hx, smul_eq_mul]; field_simp; ring
  rw [e]
  have : inner ℝ (a * p) (y - p) = a * p * (y - p) := by simp [mul_comm]
  rw [this]
  nlinarith [mul_nonneg ha (sq_nonneg (y - p))]

lemma scaledSq_convex {a : ℝ} (ha : 0 ≤ a) : (XFun.ofReal fun x : ℝ => a * (x ^ 2 / 2)).Convex := by
  refine ⟨convex_univ, fun x _ y _ s t hs ht hst => ?_⟩
  simp only [XFun.ofReal, smul_eq_mul]
  have h : t = 1 - s := by linarith
  subst h
  nlinarith [mul_nonneg ha (mul_nonneg (mul_nonneg hs ht) (sq_nonneg (x - y)))]

lemma halfSq_exact : ProxExact halfSq (XFun.ofReal fun x : ℝ => x ^ 2 / 2) := fun x τ hτ => by
  refine ⟨_, halfSq_prox x hτ, ?_⟩
  have := (scaledSq_prox zero_le_one x hτ).1
  simpa using this

lemma halfSq_evaluates : EvaluatesNum halfSq fun x => x ^ 2 / 2 := fun _ => rfl

lemma equal_run {w t : Fin m → ℝ} {proxs : Fin m → E → ℝ → Py E} {x0 q : E} (hsum : ∑ i, w i ≠ 0) (hq : ∀ i, proxs i x0 (t i) = .ok q) (n : ℕ) (tol : ℝ) (mx : E → ℝ) :
    ∃ r, parallelDykstraProx x0 proxs (List.ofFn w) (List.ofFn t) (n + 1) tol mx = .ok r ∧ r.x = q ∧ r.pz = some fun _ => q := by
  unfold parallelDykstraProx
  rw [if_neg (by rw [ofFn_sum]; exact hsum)]
  have hbody : ∀ i (s : ParState E m), s.z = (fun _ => x0) → ∃ b, par.body proxs (normalise (List.ofFn w)) (List.ofFn t) tol mx i s =
      .ok (⟨q, fun _ => x0, some fun _ => q⟩, b) := by
    intro i s hs
    have e1 : mapPy (par.proxAt proxs (List.ofFn t) s.z) = .ok fun _ => q := by
      refine mapPy_ok fun i => ?_
      simp only [par.proxAt, List.getElem?_ofFn, i.2, dif_pos, hs]
      exact hq i
    have e2 : ∑ i : Fin m, (normalise (List.ofFn w)).getD i 0 • q = q := by
      simp only [normalise_ofFn]
      rw [← Finset.sum_smul, ← Finset.sum_div, div_self hsum, one_smul]
    unfold par.body
    rw [e1]
    simp only [Bind.bind, Except.bind, Pure.pure, Except.pure, normalise_length, List.length_ofFn, ne_eq, not_true_eq_false, if_false]
    rw [e2, hs]
    simp
  have key : ∀ n i (s : ParState E m), s.z = (fun _ => x0) →
      ∃ r, forRange (par.body proxs (normalise (List.ofFn w)) (List.ofFn t) tol mx) (n + 1) i s = .ok r ∧ r.x = q ∧ r.pz = some fun _ => q := by
    intro n
    induction n with
    | zero =>
      intro i s hs
      obtain ⟨b, hb⟩ := hbody i s hs
      simp only [forRange, hb]
      cases b <;> exact ⟨_, rfl, rfl, rfl⟩
    | succ n ih =>
      intro i s hs
      obtain ⟨b, hb⟩ := hbody i s hs
      rw [forRange, hb]
      cases b with
      | true => exact ⟨_, rfl, rfl, rfl⟩
      | false => exact ih (i + 1) ⟨q, fun _ => x0, some fun _ => q⟩ rfl
  exact key n 0 _ rfl

/-- `m` copies of `½ x²`. -/
noncomputable def copies (m n : ℕ) (tol : ℝ) (par orig : Bool) : SumCfg ℝ m := ⟨fun _ => halfSq, n + 1, tol, par, orig⟩

lemma copies_run (n : ℕ) (tol : ℝ) (par orig : Bool) (hm : 3 ≤ m ∨ (m = 2 ∧ par = true)) (mx : ℝ → ℝ) (s : SumState) {a : ℝ} (ha : 0 < a)
    (hs : s.w = List.replicate m a) (x : ℝ) {τ : ℝ} (hτ : 0 < τ) :
    (Sum.prox (copies m n tol par orig) mx s x τ).1 = .ok (x / (1 + if orig then τ else τ / a)) := by
  have hm0 : 2 ≤ m := by omega
  have hw : s.w = List.ofFn fun _ : Fin m => a := by rw [hs, List.ofFn_const]
  rw [sum_prox_more (copies m n tol par orig) hm mx s x hτ, moreProx_of_weights (copies m n tol par orig) hm0 mx s (fun _ => a) hw (fun _ => ha)]
  have ht : 0 < if orig then τ else τ / a := by split_ifs <;> positivity
  obtain ⟨r, hr, hr', -⟩ := equal_run (w := fun _ : Fin m => a) (t := fun _ => if orig then τ else τ / a) (proxs := fun _ => halfSq.prox) (x0 := x)
    (q := x / (1 + if orig then τ else τ / a)) (by simp; constructor; · omega
                                                   exact ha.ne') (fun _ => halfSq_prox x ht) n tol mx
  change (do
      let r ← parallelDykstraProx x (fun _ => halfSq.prox) (List.ofFn fun _ => a) (List.ofFn fun _ => if orig = true then τ else τ / a) (n + 1) tol mx
      pure r.x) = _
  rw [hr]
  exact congrArg Except.ok hr'

/-- C39 is violated when the weights are a float array that does not sum to one: for `m` copies of `½ x²` and all weights equal to `a ≠ 1/m` (for instance all one), the user's
array is overwritten with `1/m`, and the second identical call returns another point. -/
theorem C39_repeat_refuted (n : ℕ) (tol : ℝ) (par : Bool) (hm : 3 ≤ m ∨ (m = 2 ∧ par = true)) (mx : ℝ → ℝ) {a : ℝ} (ha : 0 < a) (hne : a * m ≠ 1) (x : ℝ) (hx : x ≠ 0)
    {τ : ℝ} (hτ : 0 < τ) :
    let s : SumState := ⟨List.replicate m a, true⟩
    let s1 := (Sum.prox (copies m n tol par false) mx s x τ).2
    s1.w ≠ s.w ∧ (Sum.prox (copies m n tol par false) mx s x τ).1 = .ok (x / (1 + τ / a)) ∧
      (Sum.prox (copies m n tol par false) mx s1 x τ).1 = .ok (x / (1 + m * τ)) ∧ x / (1 + τ / a) ≠ x / (1 + m * τ) := by
  intro s s1
  have hm0 : (0 : ℝ) < m := by exact_mod_cast (by omega : 0 < m)
  have hs1 : s1 = ⟨List.replicate m (1 / m), true⟩ := by
    show (Sum.prox (copies m n tol par false) mx s x τ).2 = _
    rw [sum_prox_more (copies m n tol par false) hm mx s x hτ]
    have ht : ∃ l, Sum.taus (copies m n tol par false) s τ = .ok l := by
      unfold Sum.taus
      rw [if_neg (by simp [copies]), if_neg]
      · exact ⟨_, rfl⟩
      · simp only [s, List.mem_replicate]; rintro ⟨_, h⟩; exact ha.ne h
    obtain ⟨l, hl⟩ := ht
    unfold Sum.moreProx
    rw [if_neg (by omega), hl]
    simp only [s, if_true, normalise, List.map_replicate, List.sum_replicate, nsmul_eq_mul]
    congr 2
    field_simp
  refine ⟨?_, ?_, ?_, ?_⟩
  · rw [hs1]
    simp only [s]
    intro h
    have := List.replicate_right_injective (by omega : m ≠ 0) h
    apply hne
    rw [← this]; field_simp
  · have := copies_run n tol par false hm mx s ha rfl x hτ
    simpa using this
  · have := copies_run n tol par false hm mx s1 (a := 1 / m) (by positivity) (by rw [hs1]) x hτ
    rw [this]
    simp [mul_comm]
  · intro h
    have h1 : 0 < 1 + τ / a := by positivity
    have h2 : 0 < 1 + m * τ := by positivity
    rw [div_eq_div_iff h1.ne' h2.ne'] at h
    have h3 := mul_left_cancel₀ hx h
    apply hne
    have : m * τ = τ / a := by linarith
    field_simp at this
    linarith

/-! ## Agreement of `prox` with the function evaluated -/

lemma copies_value (n : ℕ) (tol : ℝ) (par orig : Bool) (hm : 0 < m) (x : ℝ) : Sum.call (copies m n tol par orig) x = .ok (.num (m * (x ^ 2 / 2))) := by
  have := (C38_sum_call (copies m n tol par orig) x (fun _ => .num (x ^ 2 / 2)) (fun _ => rfl)).2.1 (fun _ => by simp) ⟨⟨0, hm⟩, _, rfl⟩
  rw [this]
  simp [CallVal.numPart]

/-- C74 is violated with `use_original_tau=True`: for `m` copies of `½ x²` and default weights the object evaluates `m x²/2`, and its `prox` returns, for every number of iterations
and every tolerance, a point that is not the proximal point of that function. -/
theorem C74_original_tau_refuted (n : ℕ) (tol : ℝ) (par : Bool) (hm : 3 ≤ m ∨ (m = 2 ∧ par = true)) (mx : ℝ → ℝ) (s : SumState) (hs : Sum.init m none = .ok s) (x : ℝ)
    (hx : x ≠ 0) {τ : ℝ} (hτ : 0 < τ) : (∀ y, Sum.call (copies m n tol par true) y = .ok (.num (m * (y ^ 2 / 2)))) ∧
      ∃ p, (Sum.prox (copies m n tol par true) mx s x τ).1 = .ok p ∧ ¬ IsProx (XFun.ofReal fun y : ℝ => m * (y ^ 2 / 2)) τ x p := by
  have hm0 : (1 : ℝ) < m := by exact_mod_cast (by omega : 1 < m)
  refine ⟨fun y => copies_value n tol par true (by omega) y, x / (1 + τ), ?_, ?_⟩
  · refine (?_ : _ = Except.ok (x / (1 + if true then τ else τ / (1 / m))))
    refine copies_run n tol par true hm mx s (a := 1 / m) (by positivity) ?_ x hτ
    simp only [Sum.init, show m ≠ 0 by omega, if_false] at hs
    cases hs; rfl
  · intro h
    have := (scaledSq_prox (by linarith : (0 : ℝ) ≤ m) x hτ).2 _ h
    have h1 : 0 < 1 + τ := by positivity
    have h2 : 0 < 1 + m * τ := by positivity
    rw [div_eq_div_iff h1.ne' h2.ne'] at this
    have h3 := mul_left_cancel₀ hx this
    nlinarith

/-- C74 is violated with weights that do not sum to one: the weights are normalised for the average but not for the steps.  With all weights equal to `a ≠ 1/m` the result is not
the proximal point of the function evaluated, nor (unless `a = 1`) that of the weighted average. -/
theorem C74_weights_refuted (n : ℕ) (tol : ℝ) (par : Bool) (hm : 3 ≤ m ∨ (m = 2 ∧ par = true)) (mx : ℝ → ℝ) (s : SumState) {a : ℝ} (ha : 0 < a) (hne : a * m ≠ 1)
    (hs : s.w = List.replicate m a) (x : ℝ) (hx : x ≠ 0) {τ : ℝ} (hτ : 0 < τ) : (∀ y, Sum.call (copies m n tol par false) y = .ok (.num (m * (y ^ 2 / 2)))) ∧
      ∃ p, (Sum.prox (copies m n tol par false) mx s x τ).1 = .ok p ∧ ¬ IsProx (XFun.ofReal fun y : ℝ => m * (y ^ 2 / 2)) τ x p := by
  have hm0 : (1 : ℝ) < m := by exact_mod_cast (by omega : 1 < m)
  refine ⟨fun y => copies_value n tol par false (by omega) y, _, copies_run n tol par false hm mx s ha hs x hτ, ?_⟩
  intro h
  have := (scaledSq_prox (by linarith : (0 : ℝ) ≤ m) x hτ).2 _ h
  simp only [Bool.false_eq_true, if_false] at this
  have h1 : 0 < 1 + τ / a := by positivity
  have h2 : 0 < 1 + m * τ := by positivity
  rw [div_eq_div_iff h1.ne' h2.ne'] at this
  have h3 := mul_left_cancel₀ hx this
  apply hne
  have h4 : m * τ = τ / a := by linarith
  field_simp at h4
  linarith

/-- C74 with default options: whenever the routine for two operators or the parallel one has become stationary, `prox` returns the proximal point of the sum evaluated; weights given
must sum to one. -/
theorem C74_default_partial (c : SumCfg E m) (hm : 3 ≤ m ∨ (m = 2 ∧ c.useParallel = true)) (htau : c.useOriginalTau = false) {F : Fin m → XFun E} (hF : ∀ i, (F i).Convex)
    (hf : ∀ i, ProxExact (c.ops i) (F i)) (w : Fin m → ℝ) (hpos : ∀ i, 0 < w i) (hw1 : ∑ i, w i = 1) (s : SumState) (hw : s.w = List.ofFn w) (x0 : E) {τ : ℝ}
    (hτ : 0 < τ) (mx : E → ℝ) (r : ParState E m)
    (hr : parallelDykstraProx x0 (fun i => (c.ops i).prox) (List.ofFn w) (List.ofFn fun i => τ / w i) c.niter c.tol mx = .ok r) (hpz : r.pz = some fun _ => r.x) :
    (Sum.prox c mx s x0 τ).1 = .ok r.x ∧ IsUniqueProx (sumObj F) τ x0 r.x := by
  have ht : ∀ i, 0 < τ / w i := fun i => div_pos hτ (hpos i)
  constructor
  · rw [sum_prox_more c hm mx s x0 hτ, moreProx_of_weights c (by omega) mx s w hw hpos, htau]
    simp only [Bool.false_eq_true, if_false]
    rw [hr]; rfl
  · have h1 := C37_weighted_stationary (F := F) hF hpos ht (fun i v p hp => by
      obtain ⟨q, hq, hq'⟩ := hf i v _ (ht i)
      rw [hq] at hp; cases hp; exact hq') x0 c.niter c.tol mx r hr hpz
    have e : (sumObj fun i => (F i).smul (w i * (τ / w i) / ∑ j, w j)) = (sumObj F).smul τ := by
      have : ∀ i, w i * (τ / w i) / ∑ j, w j = τ := fun i => by have := (hpos i).ne'; rw [hw1]; field_simp
      simp only [this, sumObj, XFun.smul, Finset.mul_sum]
    rw [e] at h1
    have e2 : ∀ q, IsProx ((sumObj F).smul τ) 1 x0 q ↔ IsProx (sumObj F) τ x0 q := fun q => by
      have := smul_isProx (F := sumObj F) hτ one_pos (x := x0) (p := q)
      rwa [mul_one] at this
    exact ⟨(e2 _).1 h1.1, fun q hq => h1.2 q ((e2 q).2 hq)⟩

/-! ## The hypotheses are met -/

lemma halfSq_convex : (XFun.ofReal fun x : ℝ => x ^ 2 / 2).Convex := by
  have := (scaledSq_convex (zero_le_one))
  simpa using this

/-- C37 (two operators): with `F = 0` and `G = ½ x²` the iteration is stationary from the second iteration on. -/
example (x0 : ℝ) : ∃ r, dykstraTwo x0 (fun v => .ok v) (fun v => halfSq.prox v 1) 2 0 (fun v => |v|) = .ok r ∧ r.y = some r.x := by
  have h : ∀ v, halfSq.prox v 1 = .ok (v / (1 + 1)) := fun v => halfSq_prox v one_pos
  simp only [dykstraTwo, forRange, dykstraTwo.body, h, Bind.bind, Except.bind, Pure.pure, Except.pure]
  rw [decide_eq_false (not_lt.2 (le_max_of_le_left (abs_nonneg _)))]
  simp only [Bool.false_eq_true, if_false]
  rw [decide_eq_false (not_lt.2 (le_max_of_le_left (abs_nonneg _)))]
  simp only [Bool.false_eq_true, if_false]
  exact ⟨_, rfl, by simp only; congr 1; ring⟩

/-- C37 (weighted variant): three copies of `½ x²` are stationary. -/
example (x0 : ℝ) : ∃ r, parallelDykstraProx x0 (fun _ : Fin 3 => halfSq.prox) (List.ofFn fun _ : Fin 3 => (1 / 3 : ℝ)) (List.ofFn fun _ : Fin 3 => (3 : ℝ)) 1 0
    (fun v => |v|) = .ok r ∧ r.pz = some fun _ => r.x := by
  obtain ⟨r, h1, h2, h3⟩ := equal_run (w := fun _ : Fin 3 => (1 / 3 : ℝ)) (t := fun _ => 3) (proxs := fun _ => halfSq.prox) (x0 := x0) (q := x0 / (1 + 3))
    (by simp) (fun _ => halfSq_prox x0 (by norm_num)) 0 0 fun v => |v|
  exact ⟨r, h1, by rw [h2, h3]⟩

/-- C37 (cyclic variant): two copies of the set `{0}`. -/
example (x0 : ℝ) : ∃ r, parallelDykstraProjection x0 (fun (_ : Fin 2) _ => (.ok 0 : Py ℝ)) 1 0 (fun v => |v|) = .ok r ∧ r.up = some fun _ => r.u := by
  have h : forRange (cyc.inner fun (_ : Fin 2) _ => (.ok 0 : Py ℝ)) 2 0 (x0, (fun _ => 0), fun _ => x0) =
      .ok (0, Function.update (Function.update (fun _ => 0) 0 (0 + x0 - 0)) 1 (0 + 0 - 0), fun _ => 0) := by
    simp only [forRange, cyc.inner, Bind.bind, Except.bind, Pure.pure, Except.pure]
    simp [prevIdx]
    funext i
    fin_cases i <;> rfl
  have hb : ∃ z b, cyc.body (fun (_ : Fin 2) _ => (.ok 0 : Py ℝ)) 0 (fun v => |v|) 0 ⟨x0, fun _ => 0, none⟩ = .ok (⟨0, z, some fun _ => 0⟩, b) := by
    unfold cyc.body
    rw [h]
    exact ⟨_, _, rfl⟩
  obtain ⟨z, b, hb⟩ := hb
  unfold parallelDykstraProjection
  rw [forRange, hb]
  cases b <;> exact ⟨_, rfl, rfl⟩

/-- C38: three copies of `½ x²`: the proximal point with `τ = 1` is `x0/4`, certified by the gradients. -/
example (x0 : ℝ) : ∃ (p : ℝ) (g : Fin 3 → ℝ), (∀ i, IsSubgrad (XFun.ofReal fun x : ℝ => x ^ 2 / 2) p (g i)) ∧ p + (1 : ℝ) • ∑ i, g i = x0 := by
  refine ⟨x0 / 4, fun _ => x0 / 4, fun _ => ⟨trivial, fun y _ => ?_⟩, by simp; ring⟩
  have : inner ℝ (x0 / 4) (y - x0 / 4) = x0 / 4 * (y - x0 / 4) := by simp [mul_comm]
  simp only [XFun.ofReal]
  rw [this]
  nlinarith [sq_nonneg (y - x0 / 4)]

/-- C38: a sum of a number and an indicator. -/
example : Sum.combine [.num 2, .bool true, .num 3] = .num 5 ∧ Sum.combine [.num 2, .bool false] = .bool false := by
  constructor
  · rw [combine_ok (by simp), if_pos ⟨2, by simp⟩]; simp [CallVal.numPart]; norm_num
  · exact combine_false (by simp)

end Verif
