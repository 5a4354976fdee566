import Verif.Props.Separate2
import Verif.Props.Twist
import Verif.Model.Bregman
import Verif.Model.Palm
import Verif.Model.PnP

/-!
# C110: Constraints hold for what is returned

A point that comes out of a projection lies in the set, and so do the outputs of the solvers that are the result of their last projection.
-/

open scoped RealInnerProductSpace

namespace Verif

variable {E F : Type} [NormedAddCommGroup E] [InnerProductSpace ℝ E] [NormedAddCommGroup F] [InnerProductSpace ℝ F]

/-! ## Specification -/

/-- Whatever `prox` returns lies in `C`. -/
def Lands (f : ProxOp E) (C : Set E) : Prop := ∀ v τ p, f.prox v τ = .ok p → p ∈ C

/-! ## Postconditions -/

/-- Whatever is returned satisfies `Q`. -/
def PyPost {α : Type} (Q : α → Prop) (a : Py α) : Prop := ∀ r, a = .ok r → Q r

section PyPost

variable {α β : Type}

lemma PyPost.pure {Q : α → Prop} {r : α} (h : Q r) : PyPost Q (Pure.pure r) := by
  rintro _ ⟨⟩
  exact h

lemma PyPost.ok {Q : α → Prop} {r : α} (h : Q r) : PyPost Q (.ok r) := PyPost.pure h

lemma PyPost.error {Q : α → Prop} {e : PyErr} : PyPost Q (.error e) := by
  rintro _ ⟨⟩

lemma PyPost.trivial (a : Py α) : PyPost (fun _ => True) a := fun _ _ => True.intro

lemma PyPost.bind {P : α → Prop} {Q : β → Prop} {a : Py α} {k : α → Py β} (h : PyPost P a) (hk : ∀ r, P r → PyPost Q (k r)) : PyPost Q (a >>= k) := by
  intro r hr
  cases a with
  | error e => cases hr
  | ok v => exact hk v (h v rfl) r hr

lemma PyPost.skip {Q : β → Prop} {a : Py α} {k : α → Py β} (hk : ∀ r, PyPost Q (k r)) : PyPost Q (a >>= k) := (PyPost.trivial a).bind fun r _ => hk r

lemma PyPost.ite {Q : α → Prop} {a b : Py α} {c : Prop} [Decidable c] (h : PyPost Q a) (h' : PyPost Q b) : PyPost Q (if c then a else b) := by
  split_ifs
  · exact h
  · exact h'

lemma PyPost.mono {P Q : α → Prop} {a : Py α} (h : PyPost P a) (hPQ : ∀ r, P r → Q r) : PyPost Q a := fun r hr => hPQ r (h r hr)

/-- After at least one pass through the loop, whatever every pass establishes holds. -/
lemma PyPost.loop {S : Type} {Q I : S → Prop} {body : ℕ → S → Py (S × Bool)} (h : ∀ i s, I s → PyPost (fun r => I r.1 ∧ Q r.1) (body i s)) :
    ∀ n i s, I s → PyPost (fun r => I r ∧ Q r) (forRange body (n + 1) i s)
  | n, i, s, hs => by
    intro r hr
    simp only [forRange] at hr
    cases hb : body i s with
    | error e => rw [hb] at hr; cases hr
    | ok v =>
      obtain ⟨s', b⟩ := v
      have hv := h i s hs _ hb
      rw [hb] at hr
      simp only at hr
      split_ifs at hr with hbrk
      · cases hr; exact hv
      · cases n with
        | zero => simp only [forRange] at hr; cases hr; exact hv
        | succ n => exact PyPost.loop h n (i + 1) s' hv.1 r hr

end PyPost

lemma Lands.post {f : ProxOp E} {C : Set E} (h : Lands f C) (v : E) (τ : ℝ) : PyPost (· ∈ C) (f.prox v τ) := h v τ

variable {f g : ProxOp E} {C D : Set E}

/-! ## Solvers -/

/-- C110 for `ProximalPoint`: the result and every iterate given to the callback lie in the set. -/
theorem C110_proximalpoint (hf : Lands f C) (x0 : E) (τ : ℝ) (n : ℕ) (tol : Option ℝ) (s : PPState E) (h : ProximalPoint f x0 τ (n + 1) tol = .ok s) :
    s.x ∈ C ∧ ∀ v ∈ s.log, v ∈ C := by
  refine (PyPost.loop (I := fun s => ∀ v ∈ s.log, v ∈ C) (Q := fun s => s.x ∈ C) (fun i s hs => ?_) n 0 _ (by simp) s h).symm
  refine (hf.post _ _).bind fun x hx => ?_
  have hl : ∀ v ∈ s.log ++ [x], v ∈ C := by
    intro v hv
    rcases List.mem_append.1 hv with hv | hv
    · exact hs v hv
    · rw [List.mem_singleton.1 hv]; exact hx
  cases tol with
  | none => exact PyPost.pure ⟨hl, hx⟩
  | some t => exact PyPost.skip fun v => PyPost.skip fun r => PyPost.pure ⟨hl, hx⟩

lemma mem_push {A : Type} {P : A → Prop} {l : List A} {x : A} (hl : ∀ v ∈ l, P v) (hx : P x) : ∀ v ∈ l ++ [x], P v := by
  intro v hv
  rcases List.mem_append.1 hv with hv | hv
  · exact hl v hv
  · rw [List.mem_singleton.1 hv]; exact hx

/-- C110 for `ADMM`: `x` lies in the set of `f` and `z` in the set of `g`, in every iteration. -/
theorem C110_admm (hf : Lands f C) (hg : Lands g D) (x0 z0 : Option E) (τ : ℝ) (n : ℕ) (gfirst : Bool) (s : SplitState E) (h : ADMM f g x0 z0 τ (n + 1) gfirst = .ok s) :
    s.x ∈ C ∧ s.z ∈ D ∧ ∀ v ∈ s.log, v.1 ∈ C ∧ v.2 ∈ D := by
  have := PyPost.skip (a := x0z0Init x0 z0) (fun xz => PyPost.loop (I := fun s : SplitState E => ∀ v ∈ s.log, v.1 ∈ C ∧ v.2 ∈ D) (Q := fun s => s.x ∈ C ∧ s.z ∈ D)
    (body := ADMM.body f g τ gfirst) (fun i s hs => ?_) n 0 ⟨xz.1, xz.2, 0, []⟩ (by simp)) s h
  · exact ⟨this.2.1, this.2.2, this.1⟩
  · cases gfirst
    · exact (hf.post _ _).bind fun x hx => (hg.post _ _).bind fun z hz => PyPost.pure ⟨mem_push hs ⟨hx, hz⟩, hx, hz⟩
    · exact (hg.post _ _).bind fun z hz => (hf.post _ _).bind fun x hx => PyPost.pure ⟨mem_push hs ⟨hx, hz⟩, hx, hz⟩

/-- C110 for `HQS`. -/
theorem C110_hqs (hf : Lands f C) (hg : Lands g D) (x0 z0 : Option E) (tau : StepSpec) (n : ℕ) (gfirst : Bool) (s : SplitState E)
    (h : HQS f g x0 z0 tau (n + 1) gfirst = .ok s) : s.x ∈ C ∧ s.z ∈ D ∧ ∀ v ∈ s.log, v.1 ∈ C ∧ v.2 ∈ D := by
  have := PyPost.skip (a := x0z0Init x0 z0) (fun xz => PyPost.loop (I := fun s : SplitState E => ∀ v ∈ s.log, v.1 ∈ C ∧ v.2 ∈ D) (Q := fun s => s.x ∈ C ∧ s.z ∈ D)
    (body := HQS.body f g tau gfirst) (fun i s hs => ?_) n 0 ⟨xz.1, xz.2, 0, []⟩ (by simp)) s h
  · exact ⟨this.2.1, this.2.2, this.1⟩
  · refine PyPost.skip fun τ => ?_
    cases gfirst
    · exact (hf.post _ _).bind fun x hx => (hg.post _ _).bind fun z hz => PyPost.pure ⟨mem_push hs ⟨hx, hz⟩, hx, hz⟩
    · exact (hg.post _ _).bind fun z hz => (hf.post _ _).bind fun x hx => PyPost.pure ⟨mem_push hs ⟨hx, hz⟩, hx, hz⟩

/-- C110 for `DouglasRachfordSplitting`: the first output lies in the set of the operator used first.  (With no iteration the function raises.) -/
theorem C110_dr (hf : Lands f C) (hg : Lands g D) (x0 : E) (τ η : ℝ) (n : ℕ) (gfirst : Bool) (r : E × E × List (E × E)) (h : DouglasRachford f g x0 τ η n gfirst = .ok r) :
    (r.1 ∈ if gfirst then D else C) ∧ ∀ v ∈ r.2.2, v.1 ∈ if gfirst then D else C := by
  set K : Set E := if gfirst then D else C with hK
  clear_value K
  cases n with
  | zero => cases h
  | succ n =>
    refine PyPost.bind (Q := fun r : E × E × List (E × E) => r.1 ∈ K ∧ ∀ v ∈ r.2.2, v.1 ∈ K) (PyPost.loop (I := fun s : DRState E => ∀ v ∈ s.log, v.1 ∈ K) (Q := fun s => ∀ x, s.x = some x → x ∈ K) (body := DR.body f g τ η gfirst)
      (fun i s hs => ?_) n 0 ⟨none, x0, []⟩ (by simp)) (fun s hs => ?_) r h
    · cases gfirst
      · subst hK
        exact (hf.post _ _).bind fun x hx => PyPost.skip fun z => PyPost.pure ⟨mem_push hs hx, by rintro _ ⟨⟩; exact hx⟩
      · subst hK
        exact (hg.post _ _).bind fun x hx => PyPost.skip fun z => PyPost.pure ⟨mem_push hs hx, by rintro _ ⟨⟩; exact hx⟩
    · obtain ⟨x, y, log⟩ := s
      cases x with
      | none => exact PyPost.error
      | some x => exact PyPost.pure ⟨hs.2 x rfl, hs.1⟩

/-- What backtracking returns has been through `prox`. -/
lemma backtrack_post (hg : Lands g C) (x : E) (e β : ℝ) : ∀ (n : ℕ) (t : ℝ) (z : Option E), (∀ z', z = some z' → z' ∈ C) → PyPost (fun r => r.1 ∈ C) (backtrack f g x e β n t z)
  | 0, _, none, _ => PyPost.error
  | 0, _, some z, h => PyPost.ok (h z rfl)
  | n + 1, t, _, _ => by
    refine PyPost.skip fun gx => (hg.post _ _).bind fun p hp => PyPost.skip fun fx => PyPost.skip fun fz => PyPost.ite (PyPost.ok hp) ?_
    exact backtrack_post hg x e β n _ _ (by rintro _ ⟨⟩; exact hp)

lemma pg_loop_post (f g : ProxOp E) (a : PGArgs) (bt : Bool) (I : E → Prop) (Q : E → Prop) (hs : ∀ e s, I s.x → PyPost (fun r => I r.1 ∧ Q r.1) (PG.step f g a bt e s)) (n : ℕ) (s0 : PGState E)
    (h0 : I s0.x) (hl : s0.log = []) : PyPost (fun r => Q r.x ∧ ∀ v ∈ r.log, Q v) (forRange (PG.body f g a bt) (n + 1) 0 s0) := by
  refine (PyPost.loop (I := fun s : PGState E => I s.x ∧ ∀ v ∈ s.log, Q v) (Q := fun s => Q s.x) (fun i s hI => ?_) n 0 s0 ⟨h0, by simp [hl]⟩).mono fun r hr => ⟨hr.2, hr.1.2⟩
  refine PyPost.skip fun e => (hs e s hI.1).bind fun xt hx => ?_
  obtain ⟨x, t⟩ := xt
  cases htol : a.tol with
  | none => exact PyPost.pure ⟨⟨hx.1, mem_push hI.2 hx.2⟩, hx.2⟩
  | some tol => exact PyPost.skip fun pf => PyPost.skip fun pg => PyPost.pure ⟨⟨hx.1, mem_push hI.2 hx.2⟩, hx.2⟩

/-- C110 for `ProximalGradient` without relaxation, with any step rule, acceleration and tolerance. -/
theorem C110_proximalgradient (hg : Lands g C) (x0 : E) (a : PGArgs) (hη : a.eta = 1) (hn : 1 ≤ a.niter) (s : PGState E) (h : ProximalGradient f g x0 a = .ok s) :
    s.x ∈ C ∧ ∀ v ∈ s.log, v ∈ C := by
  obtain ⟨n, hn⟩ := Nat.exists_eq_add_of_le' hn
  refine PyPost.skip (Q := fun s : PGState E => s.x ∈ C ∧ ∀ v ∈ s.log, v ∈ C) (fun _ => PyPost.ite PyPost.error ?_) s h
  rw [hn]
  refine pg_loop_post f g a _ (fun _ => True) (· ∈ C) (fun e s _ => ?_) n _ True.intro rfl
  unfold PG.step
  refine PyPost.ite ?_ ?_
  · refine (backtrack_post hg _ _ _ _ _ none (by simp)).bind fun xt hx => ?_
    simp only [hη, if_true]
    exact PyPost.pure ⟨True.intro, hx⟩
  · simp only [hη, if_true]
    exact PyPost.skip fun gy => (hg.post _ _).bind fun p hp => PyPost.pure ⟨True.intro, hp⟩

lemma relax_mem (hC : Convex ℝ C) {η : ℝ} (h0 : 0 ≤ η) (h1 : η ≤ 1) {x p : E} (hx : x ∈ C) (hp : p ∈ C) : x + η • (p - x) ∈ C := hC.add_smul_sub_mem hx hp ⟨h0, h1⟩

/-- C110 for `ProximalGradient` with relaxation `0 ≤ eta ≤ 1` onto a convex set, started in the set; with backtracking it may start anywhere. -/
theorem C110_proximalgradient_relaxed (hg : Lands g C) (hC : Convex ℝ C) (x0 : E) (a : PGArgs) (h0 : 0 ≤ a.eta) (h1 : a.eta ≤ 1) (hx0 : x0 ∈ C ∨ a.tau = none ∨ a.backtracking = true)
    (hn : 1 ≤ a.niter) (s : PGState E) (h : ProximalGradient f g x0 a = .ok s) : s.x ∈ C ∧ ∀ v ∈ s.log, v ∈ C := by
  obtain ⟨n, hn⟩ := Nat.exists_eq_add_of_le' hn
  refine PyPost.skip (Q := fun s : PGState E => s.x ∈ C ∧ ∀ v ∈ s.log, v ∈ C) (fun _ => PyPost.ite PyPost.error ?_) s h
  rw [hn]
  have hbt : ∀ e s, PyPost (fun r => r.1 ∈ C) (PG.step f g a true e s) := fun e s => by
    simp only [PG.step, if_true]
    refine (backtrack_post hg _ _ _ _ _ none (by simp)).bind fun xt hx => PyPost.ite (PyPost.pure hx) ?_
    exact PyPost.skip fun gy => (hg.post _ _).bind fun p hp => PyPost.pure (relax_mem hC h0 h1 hx hp)
  have hno : ∀ e s, s.x ∈ C → PyPost (fun r => r.1 ∈ C) (PG.step f g a false e s) := fun e s hs => by
    simp only [PG.step, Bool.false_eq_true, if_false]
    refine PyPost.ite (PyPost.skip fun gy => (hg.post _ _).bind fun p hp => PyPost.pure hp) ?_
    exact PyPost.skip fun gy => (hg.post _ _).bind fun p hp => PyPost.pure (relax_mem hC h0 h1 hs hp)
  have key : ∀ bt t, (x0 ∈ C ∨ bt = true) → PyPost (fun r => r.x ∈ C ∧ ∀ v ∈ r.log, v ∈ C) (forRange (PG.body f g a bt) (n + 1) 0 ⟨x0, x0, 1, t, none, []⟩) := fun bt t hb => by
    cases bt with
    | true => exact pg_loop_post f g a _ (fun _ => True) (· ∈ C) (fun e s _ => (hbt e s).mono fun r hr => ⟨True.intro, hr⟩) n _ True.intro rfl
    | false => exact pg_loop_post f g a _ (· ∈ C) (· ∈ C) (fun e s hs => (hno e s hs).mono fun r hr => ⟨hr, hr⟩) n _ (hb.resolve_right (by simp)) rfl
  cases ht : a.tau with
  | none => exact key true 1 (Or.inr rfl)
  | some t => exact key a.backtracking t (hx0.imp_right fun h => h.resolve_left (by simp [ht]))

/-- C110 for `AndersonProximalGradient`: the result lies in the set whatever the number of iterations, as the start is projected too. -/
theorem C110_anderson (hg : Lands g C) (solve : List E → Py (List ℝ)) (x0 : E) (τ : ℝ) (epsg : StepSpec) (n nhistory : ℕ) (safeguard : Bool) (tol : Option ℝ) (s : AndersonState E)
    (h : AndersonProximalGradient f g solve x0 τ epsg n nhistory safeguard tol = .ok s) : s.x ∈ C ∧ ∀ v ∈ s.log, v ∈ C := by
  have hbody : ∀ i s, PyPost (fun r : AndersonState E × Bool => ((∀ v ∈ s.log, v ∈ C) → ∀ v ∈ r.1.log, v ∈ C) ∧ r.1.x ∈ C)
      (Anderson.body f g solve τ epsg nhistory safeguard tol i s) := fun i s => by
    refine PyPost.skip fun gx => PyPost.skip fun α => PyPost.skip fun e => (hg.post _ _).bind fun xt hxt => ?_
    refine PyPost.bind (P := fun r => r.1 ∈ C) ?_ fun r hr => ?_
    · refine PyPost.ite (PyPost.skip fun v => PyPost.ite (PyPost.pure hxt) ((hg.post _ _).bind fun xg hxg => PyPost.pure hxg)) (PyPost.pure hxt)
    · cases tol with
      | none => exact PyPost.pure ⟨fun hl => mem_push hl hr, hr⟩
      | some t => exact PyPost.skip fun pf => PyPost.skip fun pg => PyPost.pure ⟨fun hl => mem_push hl hr, hr⟩
  refine PyPost.skip (Q := fun s : AndersonState E => s.x ∈ C ∧ ∀ v ∈ s.log, v ∈ C) (fun _ => PyPost.skip fun e0 => PyPost.bind
    (P := fun s : AndersonState E => s.x ∈ C ∧ ∀ v ∈ s.log, v ∈ C) ?_ fun s hs => ?_) s h
  · exact PyPost.skip fun gx => (hg.post _ _).bind fun x hx => PyPost.skip fun pf => PyPost.pure ⟨hx, by simp⟩
  · intro r hr
    exact forRange_inv (I := fun s : AndersonState E => s.x ∈ C ∧ ∀ v ∈ s.log, v ∈ C) (fun i s s' b hI hb => ⟨(hbody i s _ hb).2, (hbody i s _ hb).1 hI.2⟩) n 0 s r hs hr

section operators

variable {gF : ProxOp F} {A : LinOp E F} {DF : Set F}

/-- C110 for `LinearizedADMM`. -/
theorem C110_linearized_admm (hf : Lands f C) (hg : Lands gF DF) (x0 : Option E) (z0 : Option F) (τ μ : ℝ) (n : ℕ) (s : SplitOpState E F)
    (h : LinearizedADMM f gF A x0 z0 τ μ (n + 1) = .ok s) : s.x ∈ C ∧ s.z ∈ DF ∧ ∀ v ∈ s.log, v ∈ C := by
  refine PyPost.skip (Q := fun s : SplitOpState E F => s.x ∈ C ∧ s.z ∈ DF ∧ ∀ v ∈ s.log, v ∈ C) (fun xz => ?_) s h
  refine (PyPost.loop (I := fun s : SplitOpState E F => ∀ v ∈ s.log, v ∈ C) (Q := fun s => s.x ∈ C ∧ s.z ∈ DF)
    (body := LinearizedADMM.body f gF A τ μ) (fun i s hs => ?_) n 0 _ (by simp)).mono fun r hr => ⟨hr.2.1, hr.2.2, hr.1⟩
  exact PyPost.ite PyPost.error ((hf.post _ _).bind fun x hx => (hg.post _ _).bind fun z hz => PyPost.pure ⟨mem_push hs hx, hx, hz⟩)

/-- C110 for `ADMML2`: the second output. -/
theorem C110_admml2 (inv : E → F → ℝ → E) (hg : Lands gF DF) (x0 : Option E) (z0 : Option F) (τ : ℝ) (n : ℕ) (gfirst : Bool) (s : SplitOpState E F)
    (h : ADMML2 inv gF A x0 z0 τ (n + 1) gfirst = .ok s) : s.z ∈ DF := by
  refine PyPost.skip (Q := fun s : SplitOpState E F => s.z ∈ DF) (fun xz => PyPost.ite PyPost.error (PyPost.ite PyPost.error ?_)) s h
  refine (PyPost.loop (I := fun _ : SplitOpState E F => True) (Q := fun s => s.z ∈ DF) (body := ADMML2.body inv gF A τ gfirst) (fun i s _ => ?_) n 0 _ True.intro).mono fun r hr => hr.2
  exact PyPost.ite ((hg.post _ _).bind fun z hz => PyPost.pure ⟨True.intro, hz⟩) ((hg.post _ _).bind fun z hz => PyPost.pure ⟨True.intro, hz⟩)

/-- C110 for `PrimalDual`: the primal output. -/
theorem C110_primaldual (hf : Lands f C) (x0 : E) (y0 : Option F) (z : Option E) (tau mu : StepSpec) (θ : ℝ) (n : ℕ) (gfirst : Bool) (s : PDState E F)
    (h : PrimalDual f gF A x0 y0 z tau mu θ (n + 1) gfirst = .ok s) : s.x ∈ C ∧ ∀ v ∈ s.log, v.1 ∈ C := by
  refine ((PyPost.loop (I := fun s : PDState E F => ∀ v ∈ s.log, v.1 ∈ C) (Q := fun s => s.x ∈ C) (body := PrimalDual.body f gF A z tau mu θ gfirst) (fun i s hs => ?_) n 0 _ (by simp)) s h).symm
  refine PyPost.skip fun τ => PyPost.skip fun μ => PyPost.ite ?_ ?_
  · exact PyPost.skip fun y => (hf.post _ _).bind fun x hx => PyPost.pure ⟨mem_push hs hx, hx⟩
  · exact (hf.post _ _).bind fun x hx => PyPost.skip fun y => PyPost.pure ⟨mem_push hs hx, hx⟩

/-- C110 for `AdaptivePrimalDual`: the first pass is always made when `niter` allows one. -/
theorem C110_adaptive (hf : Lands f C) (x0 : E) (tau mu alpha : ℝ) (a : APDArgs E F) (hn : 1 ≤ a.niter) (s : APDState E F) (h : AdaptivePrimalDual f gF A x0 tau mu alpha a = .ok s) :
    s.x ∈ C ∧ ∀ v ∈ s.log, v ∈ C := by
  have hbody : ∀ s, (∀ v ∈ s.log, v ∈ C) → PyPost (fun r : APDState E F => r.x ∈ C ∧ ∀ v ∈ r.log, v ∈ C) (APD.body f gF A a s) := fun s hs => by
    refine (hf.post _ _).bind fun x hx => PyPost.skip fun y => ?_
    have hend : ∀ p, PyPost (fun r : APDState E F => r.x ∈ C ∧ ∀ v ∈ r.log, v ∈ C) (apdSteps a.eta a.s a.delta p ‖(1 / s.mu) • (s.y - y) - (s.Ax - A.matvec x)‖ s.tau s.mu s.alpha >>= fun t =>
        Pure.pure ⟨x, y, A.matvec x, A.rmatvec y, t.1, t.2.1, t.2.2, p, ‖(1 / s.mu) • (s.y - y) - (s.Ax - A.matvec x)‖, s.iiter + 1, s.taus ++ [t.1], s.mus ++ [t.2.1], s.alphas ++ [t.2.2], s.log ++ [x]⟩) :=
      fun p => PyPost.skip fun t => PyPost.pure ⟨hx, mem_push hs hx⟩
    cases a.z with
    | none => exact PyPost.skip fun p => hend p
    | some z =>
      cases a.Az with
      | none => exact PyPost.error
      | some Az => exact PyPost.skip fun p => hend p
  have hloop : ∀ k s, s.x ∈ C ∧ (∀ v ∈ s.log, v ∈ C) → PyPost (fun r : APDState E F => r.x ∈ C ∧ ∀ v ∈ r.log, v ∈ C) (APD.loop f gF A a k s) := fun k => by
    induction k with
    | zero => exact fun s hs => PyPost.ite PyPost.error (PyPost.ok hs)
    | succ k ih => exact fun s hs => PyPost.ite ((hbody s hs.2).bind fun r hr => ih r hr) (PyPost.ok hs)
  obtain ⟨n, hn'⟩ := Nat.exists_eq_add_of_le' hn
  unfold AdaptivePrimalDual at h
  rw [hn', APD.loop, if_pos ⟨hn, by simp, by simp⟩] at h
  exact PyPost.bind (hbody _ (by simp)) (fun r hr => hloop n r hr) s h

lemma palmStep_post {p pb : Option (ProxOp E)} {γ : Option ℝ} {l : Py ℝ} {val : E → ℝ} {gr z : E} {β τ : ℝ} {nb : ℕ} (hp : ∀ γ', γ = some γ' → ∃ q, p = some q ∧ Lands q C)
    (hb : γ = none → 1 ≤ nb ∧ ∃ q, pb = some q ∧ Lands q C) : PyPost (fun r => r.1 ∈ C) (palmStep γ l val gr p pb β nb z τ) := by
  cases γ with
  | some γ =>
    obtain ⟨q, rfl, hq⟩ := hp γ rfl
    exact PyPost.bind (PyPost.skip fun l => PyPost.ite PyPost.error (hq.post _ _)) fun x hx => PyPost.pure hx
  | none =>
    obtain ⟨hnb, q, rfl, hq⟩ := hb rfl
    have key : ∀ n t z', PyPost (fun r => r.1 ∈ C) (palmBacktrack val gr (some q) β z (n + 1) t z') := fun n => by
      induction n with
      | zero =>
        exact fun t z' => (hq.post _ _).bind fun p hp => PyPost.ite PyPost.error (PyPost.ite (PyPost.ok hp) (PyPost.ok hp))
      | succ n ih =>
        exact fun t z' => (hq.post _ _).bind fun p hp => PyPost.ite PyPost.error (PyPost.ite (PyPost.ok hp) (ih _ _))
    obtain ⟨n, rfl⟩ := Nat.exists_eq_add_of_le' hnb
    exact key n τ z

/-- C110 for `PALM`: the first block always, the second one when `gammag` is given (see `C110_palm_refuted`). -/
theorem C110_palm_partial (H : BilOp E F) (a : PalmArgs E F) (hf : a.proxf = some f) (hfC : Lands f C) (hg : a.proxg = some gF) (hgD : Lands gF DF) (hnb : a.gammaf = none → 1 ≤ a.niterback)
    (hx : E) (hy : F) (x0 : E) (y0 : F) (n : ℕ) (s : PalmState E F) (h : PALM H a hx hy x0 y0 (n + 1) = .ok s) : s.x ∈ C ∧ (a.gammag ≠ none → s.y ∈ DF) := by
  refine ((PyPost.loop (I := fun _ : PalmState E F => True) (Q := fun s => s.x ∈ C ∧ (a.gammag ≠ none → s.y ∈ DF)) (body := PALM.body H a) (fun i s _ => ?_) n 0 _ True.intro) s h).2
  refine (palmStep_post (fun _ _ => ⟨f, hf, hfC⟩) fun h => ⟨hnb h, f, hf, hfC⟩).bind fun xt hx => ?_
  cases hγ : a.gammag with
  | none => exact PyPost.skip fun yt => PyPost.pure ⟨True.intro, hx, fun h => absurd rfl h⟩
  | some γ => exact (palmStep_post (C := DF) (fun _ _ => ⟨gF, hg, hgD⟩) (by simp)).bind fun yt hy => PyPost.pure ⟨True.intro, hx, fun _ => hy⟩

end operators

/-- C110 for `Bregman`: the result lies in every set the inner solver's results lie in. -/
theorem C110_bregman (solver : ProxOp E → ProxOp E → E → Py E) (hs : ∀ f g x0 x, solver f g x0 = .ok x → x ∈ C) (x0 : E) (alpha : ProxOp.Operand E) (n : ℕ) (warm : Bool) (tolx tolf : ℝ)
    (s : BregState E) (h : Bregman f g solver x0 alpha (n + 1) warm tolx tolf = .ok s) : s.x ∈ C ∧ ∀ v ∈ s.log, v ∈ C := by
  refine PyPost.skip (Q := fun s : BregState E => s.x ∈ C ∧ ∀ v ∈ s.log, v ∈ C) (fun g' => ?_) s h
  cases alpha with
  | float α =>
    refine (PyPost.loop (I := fun s : BregState E => ∀ v ∈ s.log, v ∈ C) (Q := fun s => s.x ∈ C) (body := Bregman.body f g' solver x0 α warm tolx tolf) (fun i s hl => ?_) n 0 _ (by simp)).mono
      fun r hr => hr.symm
    exact PyPost.skip fun fq => PyPost.bind (P := (· ∈ C)) (fun x hx => hs _ _ _ _ hx) fun x hx => PyPost.ite PyPost.error (PyPost.skip fun gx => PyPost.skip fun pf => PyPost.pure ⟨mem_push hl hx, hx⟩)
  | _ => exact PyPost.error

/-! ## Solvers that return averages -/

/-- C110 for `ConsensusADMM`: the average lies in any convex set that all projections land in (see `C110_average_refuted` for a set that only one of them lands in). -/
theorem C110_consensus_partial {m : ℕ} {fs : Fin m → ProxOp E} (hf : ∀ i, Lands (fs i) C) (hC : Convex ℝ C) (x0 : E) (τ : ℝ) (n : ℕ) (tol : ℝ) (mx : E → ℝ) (s : ConsState E m)
    (h : ConsensusADMM fs x0 τ (n + 1) tol mx = .ok s) : s.xbar ∈ C := by
  refine ((PyPost.loop (I := fun _ : ConsState E m => True) (Q := fun s => s.xbar ∈ C) (body := ConsensusADMM.body fs τ tol mx) (fun i s _ => ?_) n 0 _ True.intro) s h).2
  refine PyPost.bind (P := fun x : Fin m → E => ∀ i, x i ∈ C) (fun x hx i => hf i _ _ _ (mapPy_inv hx i)) fun x hx => ?_
  by_cases hm : m = 0
  · rw [if_pos hm]; exact PyPost.error
  · rw [if_neg hm]
    have hmem : (1 / (m : ℝ)) • ∑ i, x i ∈ C := by
      rw [Finset.smul_sum]
      refine hC.sum_mem (fun _ _ => by positivity) ?_ fun i _ => hx i
      simp [hm]
    exact PyPost.ite (PyPost.pure ⟨True.intro, hmem⟩) (PyPost.pure ⟨True.intro, hmem⟩)

/-- C110 for `PPXA`: the same, with non-negative weights of sum one, relaxation at most one and a start in the set. -/
theorem C110_ppxa_partial {m : ℕ} {fs : Fin m → ProxOp E} (hf : ∀ i, Lands (fs i) C) (hC : Convex ℝ C) (w : Option (Fin m → ℝ)) (hw : ∀ w', w = some w' → (∀ i, 0 ≤ w' i) ∧ ∑ i, w' i = 1)
    (y0 : Fin m → E) (hy0 : ∀ i, y0 i ∈ C) (τ η : ℝ) (h0 : 0 ≤ η) (h1 : η ≤ 1) (n : ℕ) (tol : ℝ) (mx : E → ℝ) (s : PPXAState E m) (h : PPXA fs w y0 τ η n tol mx = .ok s) :
    s.x ∈ C ∧ ∀ v ∈ s.log, v ∈ C := by
  have key : m ≠ 0 → ∀ w' : Fin m → ℝ, (∀ i, 0 ≤ w' i) → ∑ i, w' i = 1 → ∀ r,
      forRange (PPXA.body fs w' τ η tol mx) n 0 ⟨(1 / (m : ℝ)) • ∑ i, y0 i, (1 / (m : ℝ)) • ∑ i, y0 i, y0, []⟩ = .ok r → r.x ∈ C ∧ ∀ v ∈ r.log, v ∈ C := fun hm w' hw0 hw1 r hr => by
    refine forRange_inv (I := fun s : PPXAState E m => s.x ∈ C ∧ ∀ v ∈ s.log, v ∈ C) (fun i s s' b hI hb => ?_) n 0 _ r ⟨?_, by simp⟩ hr
    · refine PyPost.bind (P := fun p : Fin m → E => ∀ i, p i ∈ C) (Q := fun r : PPXAState E m × Bool => r.1.x ∈ C ∧ ∀ v ∈ r.1.log, v ∈ C) (fun p hp i => ?_) (fun p hp => ?_) _ hb
      · have := mapPy_inv hp i
        split_ifs at this
        exact hf i _ _ _ this
      · have hx := relax_mem hC h0 h1 hI.1 (hC.sum_mem (fun i _ => hw0 i) hw1 fun i _ => hp i)
        exact PyPost.ite (PyPost.pure ⟨hx, mem_push hI.2 hx⟩) (PyPost.pure ⟨hx, mem_push hI.2 hx⟩)
    · change (1 / (m : ℝ)) • ∑ i, y0 i ∈ C
      rw [Finset.smul_sum]
      refine hC.sum_mem (fun _ _ => by positivity) ?_ fun i _ => hy0 i
      simp [hm]
  unfold PPXA at h
  split_ifs at h with hm
  cases w with
  | none => exact key hm _ (fun _ => by positivity) (by simp [hm]) s h
  | some w' => exact key hm w' (hw w' rfl).1 (hw w' rfl).2 s h

/-- C110 for `GeneralizedProximalGradient` without acceleration: the same. -/
theorem C110_gpg_partial {l m : ℕ} {fs : Fin l → ProxOp E} {gs : Fin m → ProxOp E} (hg : ∀ i, Lands (gs i) C) (hC : Convex ℝ C) (x0 : E) (hx0 : x0 ∈ C) (tau : Option ℝ) (eps : StepSpec)
    (w : Option (List ℝ)) (hw : ∀ w', w = some w' → ∀ a ∈ w', 0 ≤ a) (η : ℝ) (h0 : 0 ≤ η) (h1 : η ≤ 1) (n : ℕ) (s : GPGState E m)
    (h : GeneralizedProximalGradient fs gs x0 tau eps w η n .none = .ok s) : s.x ∈ C ∧ ∀ v ∈ s.log, v ∈ C := by
  have key : ∀ ws : List ℝ, (∀ a ∈ ws, 0 ≤ a) → ws.length = m → ws.sum = 1 → ∀ r,
      forRange (GPG.body fs gs (fun j => ws.getD j 0) eps (tau.getD 1) η .none) n 0 ⟨x0, x0, 1, fun _ => x0, []⟩ = .ok r → r.x ∈ C ∧ ∀ v ∈ r.log, v ∈ C := fun ws hw0 hl hw1 r hr => by
    have hsum : ∑ j : Fin m, ws.getD j 0 = 1 := by
      subst hl
      rw [← hw1]
      conv_rhs => rw [← List.ofFn_getElem (xs := ws), List.sum_ofFn]
      exact Finset.sum_congr rfl fun j _ => by simp
    have hpos : ∀ j : Fin m, 0 ≤ ws.getD j 0 := fun j => by
      subst hl
      have : ws.getD j 0 = ws[j] := by simp
      rw [this]
      exact hw0 _ (List.getElem_mem _)
    refine (forRange_inv (I := fun s : GPGState E m => (s.x ∈ C ∧ ∀ v ∈ s.log, v ∈ C) ∧ s.y = s.x ∧ s.x = ∑ j : Fin m, ws.getD j 0 • s.zs j) (fun i s s' b hI hb => ?_) n 0 _ r
      ⟨⟨hx0, by simp⟩, rfl, by rw [← Finset.sum_smul, hsum, one_smul]⟩ hr).1
    refine PyPost.skip (Q := fun r : GPGState E m × Bool => (r.1.x ∈ C ∧ ∀ v ∈ r.1.log, v ∈ C) ∧ r.1.y = r.1.x ∧ r.1.x = ∑ j : Fin m, ws.getD j 0 • r.1.zs j)
      (fun gr => PyPost.bind (P := fun p : Fin m → E => ∀ i, p i ∈ C) (fun p hp j => ?_) fun p hp => ?_) _ hb
    · have := mapPy_inv hp j
      refine PyPost.skip (Q := (· ∈ C)) (fun e => ?_) _ this
      exact PyPost.ite PyPost.error ((hg j).post _ _)
    · have hx : ∑ j : Fin m, ws.getD j 0 • (s.zs j + η • (p j - s.y)) ∈ C := by
        have : ∑ j : Fin m, ws.getD j 0 • (s.zs j + η • (p j - s.y)) = s.x + η • ((∑ j : Fin m, ws.getD j 0 • p j) - s.x) := by
          simp only [smul_add, Finset.sum_add_distrib, ← hI.2.2, smul_comm _ η, ← Finset.smul_sum, smul_sub, Finset.sum_sub_distrib, ← Finset.sum_smul, hsum, one_smul, hI.2.1]
        rw [this]
        exact relax_mem hC h0 h1 hI.1.1 (hC.sum_mem (fun j _ => hpos j) hsum fun j _ => hp j)
      exact PyPost.pure ⟨⟨hx, mem_push hI.1.2 hx⟩, by simp, rfl⟩
  unfold GeneralizedProximalGradient at h
  cases w with
  | none =>
    simp only at h
    split_ifs at h with hc
    push Not at hc
    exact key _ (fun a ha => by rw [List.eq_of_mem_replicate ha]; positivity) hc.1 hc.2 s h
  | some ws =>
    simp only at h
    split_ifs at h with hc
    push Not at hc
    exact key ws (hw ws rfl) hc.1 hc.2 s h

/-! ## What is not in the set -/

/-- `Box(a, b)` on arrays with one entry. -/
noncomputable def interval (a b : ℝ) : ProxOp (Vec (Fin 1)) := Box (fun _ => some a) fun _ => some b

/-- The interval. -/
def intervalSet (a b : ℝ) : Set (Vec (Fin 1)) := {v | a ≤ v 0 ∧ v 0 ≤ b}

lemma interval_prox (a b v : ℝ) {τ : ℝ} (hτ : 0 < τ) : (interval a b).prox (vmk ![v]) τ = .ok (vmk ![min (max v a) b]) := by
  simp only [interval, Box, ProxOp.prox, checkTau, hτ.not_ge, if_false]
  refine congrArg Except.ok ?_
  ext i; fin_cases i
  rfl

lemma interval_lands {a b : ℝ} (hab : a ≤ b) : Lands (interval a b) (intervalSet a b) := fun v τ p h => by
  have hτ : 0 < τ := by
    by_contra hτ
    simp [interval, Box, ProxOp.prox, checkTau, not_lt.1 hτ] at h
  have hv : v = vmk ![v 0] := by ext i; fin_cases i; rfl
  rw [hv, interval_prox a b _ hτ] at h
  cases h
  exact ⟨le_min (le_max_right _ _) hab, min_le_right _ _⟩

lemma vmk1_add (a b : ℝ) : (vmk ![a] : Vec (Fin 1)) + vmk ![b] = vmk ![a + b] := by ext i; fin_cases i; rfl
lemma vmk1_sub (a b : ℝ) : (vmk ![a] : Vec (Fin 1)) - vmk ![b] = vmk ![a - b] := by ext i; fin_cases i; rfl
lemma vmk1_smul (c a : ℝ) : c • (vmk ![a] : Vec (Fin 1)) = vmk ![c * a] := by ext i; fin_cases i; rfl
lemma vmk1_grad (σ a : ℝ) : ((l2Parts σ).toOp 1).grad (vmk ![a]) = .ok (vmk ![σ * a]) := l2List_grad σ _

lemma relaxed_step (a : PGArgs) (ha : a.eta = 1 / 2) (ht : a.tol = none) (hacc : a.acceleration = .none) (he : a.epsg = .scalar 1) (i : ℕ) (v : ℝ) (hv : 1 < v) (y : Vec (Fin 1)) (t : ℝ)
    (log : List (Vec (Fin 1))) : ∃ log' y', PG.body ((l2Parts 0).toOp 1) (interval (-1) 1) a false i ⟨vmk ![v], y, t, 1, none, log⟩ =
      .ok (⟨vmk ![v + 1 / 2 * (1 - v)], y', t, 1, none, log'⟩, false) := by
  refine ⟨log ++ [vmk ![v + 1 / 2 * (1 - v)]], vmk ![v + 1 / 2 * (1 - v)], ?_⟩
  have hp : (interval (-1) 1).prox (vmk ![v]) 1 = .ok (vmk ![1]) := by
    rw [interval_prox _ _ _ one_pos, max_eq_left (by linarith), min_eq_right hv.le]
  have h12 : ¬ (1 / 2 : ℝ) = 1 := by norm_num
  simp only [PG.body, he, StepSpec.at, py_ok_bind, PG.step, ha, h12, if_false, Bool.false_eq_true, vmk1_grad, zero_mul, vmk1_smul, vmk1_sub, mul_zero, sub_zero, one_mul, hp, vmk1_add, hacc,
    momentum, ht, pure, Except.pure]
  simp

/-- C110 fails for `ProximalGradient` with relaxation started outside the set: no iterate is feasible, however many are made (`f = 0` on `[-1, 1]` from 2 with `eta = 1/2`). -/
theorem C110_relaxation_refuted (n : ℕ) : ∃ s, ProximalGradient ((l2Parts 0).toOp 1) (interval (-1) 1) (vmk ![2]) ⟨some 1, false, 1 / 2, .scalar 1, n + 1, 1, .none, 1 / 2, none⟩ = .ok s ∧
    s.x ∉ intervalSet (-1) 1 ∧ Lands (interval (-1) 1) (intervalSet (-1) 1) := by
  have H : ∀ (a : PGArgs), a.eta = 1 / 2 → a.tol = none → a.acceleration = .none → a.epsg = .scalar 1 → ∀ n i log (y : Vec (Fin 1)) t (v : ℝ), 1 < v →
      ∃ s, forRange (PG.body ((l2Parts 0).toOp 1) (interval (-1) 1) a false) n i ⟨vmk ![v], y, t, 1, none, log⟩ = .ok s ∧ 1 < s.x 0 := by
    intro a h1 h2 h3 h4 n
    induction n with
    | zero => exact fun i log y t v hv => ⟨_, rfl, hv⟩
    | succ n ih =>
      intro i log y t v hv
      obtain ⟨log', y', h⟩ := relaxed_step a h1 h2 h3 h4 i v hv y t log
      simp only [forRange, h, Bool.false_eq_true, if_false]
      exact ih (i + 1) log' y' t _ (by linarith)
  obtain ⟨s, hs, hx⟩ := H ⟨some 1, false, 1 / 2, .scalar 1, n + 1, 1, .none, 1 / 2, none⟩ rfl rfl rfl rfl (n + 1) 0 [] (vmk ![2]) 1 2 (by norm_num)
  refine ⟨s, ?_, fun h => absurd h.2 (not_le.2 hx), interval_lands (by norm_num)⟩
  rw [← hs]
  simp [ProximalGradient, StepSpec.printCheck, py_ok_bind]

/-- C110 fails for `PPXA` and `ConsensusADMM` when only one operator is a projection: the average is returned, and no output lies in the set. -/
theorem C110_average_refuted (tol : ℝ) (mx : Vec (Fin 1) → ℝ) : (∃ s, PPXA ![interval 0 1, (l2Parts 0).toOp 1] none (fun _ => vmk ![3]) 1 1 1 tol mx = .ok s ∧ s.x ∉ intervalSet 0 1) ∧
    (∃ s, ConsensusADMM ![interval 0 1, (l2Parts 0).toOp 1] (vmk ![3]) 1 1 tol mx = .ok s ∧ s.xbar ∉ intervalSet 0 1) ∧ Lands (interval 0 1) (intervalSet 0 1) := by
  have hn : ∀ v : Vec (Fin 1), v 0 = 2 → v ∉ intervalSet 0 1 := fun v hv h => by
    have := h.2
    rw [hv] at this
    norm_num at this
  have p0 : ∀ τ : ℝ, 0 < τ → (interval 0 1).prox (vmk ![3]) τ = .ok (vmk ![1]) := fun τ hτ => by rw [interval_prox _ _ _ hτ]; norm_num
  have p1 : ∀ τ : ℝ, 0 < τ → ((l2Parts 0).toOp 1).prox (vmk ![3]) τ = .ok (vmk ![3]) := fun τ hτ => by rw [l2List_prox _ _ hτ]; norm_num [vmk]
  refine ⟨?_, ?_, interval_lands zero_le_one⟩
  · have hm : mapPy (fun i : Fin 2 => if (1 / ((2 : ℕ) : ℝ)) = 0 then (.error .nanResult : Py _) else (![interval 0 1, (l2Parts 0).toOp 1] i).prox (vmk ![3]) (1 / (1 / ((2 : ℕ) : ℝ)))) =
        .ok ![vmk ![1], vmk ![3]] := mapPy_ok fun i => by
      fin_cases i
      · simpa using p0 2 (by norm_num)
      · simpa using p1 2 (by norm_num)
    have hx0 : (1 / ((2 : ℕ) : ℝ)) • ∑ _i : Fin 2, (vmk ![3] : Vec (Fin 1)) = vmk ![3] := by
      simp only [Fin.sum_univ_two, vmk1_add, vmk1_smul]; norm_num
    simp only [PPXA, forRange, PPXA.body, hm, py_ok_bind, show ¬ (2 = 0) by norm_num, if_false, hx0]
    by_cases hc : mx ((vmk ![3] : Vec (Fin 1)) + (1 : ℝ) • (∑ i : Fin 2, (1 / ((2 : ℕ) : ℝ)) • (![vmk ![1], vmk ![3]] : Fin 2 → Vec (Fin 1)) i - vmk ![3]) - vmk ![3]) < tol
    · rw [if_pos hc]; exact ⟨_, rfl, hn _ (by norm_num [vmk])⟩
    · rw [if_neg hc]; exact ⟨_, rfl, hn _ (by norm_num [vmk])⟩
  · have hm : mapPy (fun i : Fin 2 => (![interval 0 1, (l2Parts 0).toOp 1] i).prox (vmk ![3] - 0) 1) = .ok ![vmk ![1], vmk ![3]] := mapPy_ok fun i => by
      fin_cases i
      · simpa using p0 1 (by norm_num)
      · simpa using p1 1 (by norm_num)
    simp only [ConsensusADMM, forRange, ConsensusADMM.body, hm, py_ok_bind, show ¬ (2 = 0) by norm_num, if_false]
    by_cases hc : mx ((1 / ((2 : ℕ) : ℝ)) • ∑ i : Fin 2, (![vmk ![1], vmk ![3]] : Fin 2 → Vec (Fin 1)) i - vmk ![3]) < tol
    · rw [if_pos hc]; exact ⟨_, rfl, hn _ (by norm_num [vmk])⟩
    · rw [if_neg hc]; exact ⟨_, rfl, hn _ (by norm_num [vmk])⟩

/-- C110 fails for accelerated `GeneralizedProximalGradient` even with a single projection and a feasible start: the extrapolation is applied after it. -/
theorem C110_gpg_acceleration_refuted : ∃ s, GeneralizedProximalGradient ![(l2Parts 3).toOp 1] ![interval (-1) 10] (vmk ![1]) (some 1) (.scalar 1) none 1 3 .vandenberghe = .ok s ∧
    s.x ∉ intervalSet (-1) 10 ∧ (vmk ![1] : Vec (Fin 1)) ∈ intervalSet (-1) 10 := by
  have step : ∀ i (x y z t : ℝ) log, GPG.body ![(l2Parts 3).toOp 1] ![interval (-1) 10] (fun _ => 1) (.scalar 1) 1 1 .vandenberghe i ⟨vmk ![x], vmk ![y], t, fun _ => vmk ![z], log⟩ =
      .ok (⟨vmk ![z + (min (max (2 * y - z - 3 * x) (-1)) 10 - y)],
        vmk ![z + (min (max (2 * y - z - 3 * x) (-1)) 10 - y) + (i : ℝ) / (i + 3) * (z + (min (max (2 * y - z - 3 * x) (-1)) 10 - y) - x)], t,
        fun _ => vmk ![z + (min (max (2 * y - z - 3 * x) (-1)) 10 - y)], log ++ [vmk ![z + (min (max (2 * y - z - 3 * x) (-1)) 10 - y)]]⟩, false) := fun i x y z t log => by
    have h1 : mapPy (fun j : Fin 1 => (![(l2Parts 3).toOp 1] j).grad (vmk ![x])) = .ok fun _ => vmk ![3 * x] := mapPy_ok fun j => by
      fin_cases j; exact vmk1_grad 3 x
    have h2 : mapPy (fun j : Fin 1 => (do
        let e ← (StepSpec.scalar 1).at j
        if (1 : ℝ) = 0 then .error .nanResult
        else (![interval (-1) 10] j).prox ((2 : ℝ) • vmk ![y] - vmk ![z] - (1 : ℝ) • vmk ![3 * x]) (1 * e / 1) : Py (Vec (Fin 1)))) = .ok fun _ => vmk ![min (max (2 * y - z - 3 * x) (-1)) 10] := mapPy_ok fun j => by
      fin_cases j
      simp only [StepSpec.at, py_ok_bind, one_ne_zero, if_false, vmk1_smul, vmk1_sub, one_mul, div_one]
      exact interval_prox _ _ _ one_pos
    simp only [GPG.body, h1, py_ok_bind, Finset.univ_unique, Finset.sum_singleton]
    rw [h2]
    simp only [py_ok_bind, momentum, vmk1_smul, vmk1_sub, vmk1_add, one_mul, pure, Except.pure]
  refine ⟨⟨vmk ![-7 / 4], vmk ![-7 / 4 + 2 / 5 * (-7 / 4 - 2)], 1, fun _ => vmk ![-7 / 4], [vmk ![-1], vmk ![2], vmk ![-7 / 4]]⟩, ?_, fun h => absurd h.1 (by norm_num [vmk]), by norm_num [intervalSet, vmk]⟩
  have hw : (fun j : Fin 1 => (List.replicate 1 (1 / ((1 : ℕ) : ℝ))).getD j 0) = fun _ => 1 := by
    funext j; fin_cases j; norm_num
  simp only [GeneralizedProximalGradient, hw]
  rw [if_neg (by norm_num), if_neg (by simp)]
  simp only [Option.getD_some, forRange, step, Bool.false_eq_true, if_false]
  norm_num

/-- C110 fails for `TwIST`, with its documented parameters: the result is a combination with weights of both signs (here `x` in `[0, 1]` fitted to 10). -/
theorem C110_twist_refuted : ∃ s, TwIST (interval 0 1) (diagOp fun _ => 1) (vmk ![10]) (vmk ![0]) none (1, 1 / 4) 1 false = .ok s ∧ s.x ∉ intervalSet 0 1 := by
  have hd : ∀ v : Vec (Fin 1), (diagOp fun _ => 1).matvec v = v := fun v => by ext i; simp [diagOp, diagMap, vmk]
  have hd' : ∀ v : Vec (Fin 1), (diagOp fun _ => 1).rmatvec v = v := fun v => by ext i; simp [diagOp, diagMap, vmk]
  have hpar : twistParams 1 (1 / 4) = .ok (10 / 9, 16 / 9) := by
    have hs : √(1 / 4 : ℝ) = 1 / 2 := by rw [show (1 / 4 : ℝ) = (1 / 2) ^ 2 by norm_num]; exact Real.sqrt_sq (by norm_num)
    norm_num [twistParams, hs]
  refine ⟨⟨vmk ![10 / 9], vmk ![1], [vmk ![10 / 9]], []⟩, ?_, fun h => absurd h.2 (by norm_num [vmk])⟩
  have q1 : (interval 0 1).prox (vmk ![10]) 1 = .ok (vmk ![1]) := by rw [interval_prox _ _ _ one_pos]; norm_num
  simp only [TwIST, hpar, py_ok_bind, twistGrad_eq, hd, hd', forRange, TwIST.body, vmk1_sub, vmk1_smul, Bool.false_eq_true, if_false, pure, Except.pure]
  norm_num [q1, py_ok_bind, vmk1_smul, vmk1_add, vmk1_sub]
  ext i; fin_cases i
  norm_num [vmk]

/-- C110 fails for the second block of `PALM` with backtracking: it lies in the set of `proxf`, never in that of `proxg`, when the two have no common point. -/
theorem C110_palm_refuted (H : BilOp E E) (a : PalmArgs E E) (hf : a.proxfY = some f) (hfC : Lands f C) (hCD : Disjoint C D) (hγ : a.gammag = none) (hnb : 1 ≤ a.niterback)
    (hx : E) (hy : E) (x0 : E) (y0 : E) (n : ℕ) (s : PalmState E E) (h : PALM H a hx hy x0 y0 (n + 1) = .ok s) : s.y ∈ C ∧ s.y ∉ D := by
  have : s.y ∈ C := by
    refine ((PyPost.loop (I := fun _ : PalmState E E => True) (Q := fun s => s.y ∈ C) (body := PALM.body H a) (fun i s _ => ?_) n 0 _ True.intro) s h).2
    refine PyPost.skip fun xt => ?_
    exact (palmStep_post (C := C) (by simp [hγ]) fun _ => ⟨hnb, f, hf, hfC⟩).bind fun yt hy => PyPost.pure ⟨True.intro, hy⟩
  exact ⟨this, Set.disjoint_left.1 hCD this⟩

/-! ## Concrete cases -/

/-- A non-negativity and upper bound constraint in `ADMM`. -/
example (x : Vec (Fin 1)) (n : ℕ) (s : SplitState (Vec (Fin 1))) (h : ADMM ((l2Parts 1).toOp 1) (interval 0 1) (some x) none 1 (n + 1) false = .ok s) : 0 ≤ s.z 0 ∧ s.z 0 ≤ 1 :=
  (C110_admm (C := Set.univ) (fun _ _ _ _ => True.intro) (interval_lands zero_le_one) _ _ _ _ _ _ h).2.1

/-- The step it starts with does return. -/
example (a : ℝ) : ∃ p, ((l2Parts 1).toOp 1).prox (vmk ![a]) 1 = .ok p ∧ ∃ q, (interval 0 1).prox (vmk ![a / 2]) 1 = .ok q :=
  ⟨_, l2List_prox 1 _ one_pos, _, interval_prox 0 1 _ one_pos⟩

example : Convex ℝ (intervalSet 0 1) := fun x hx y hy a b ha hb hab => by
  obtain ⟨h1, h2⟩ := hx
  obtain ⟨h3, h4⟩ := hy
  constructor
  · change 0 ≤ a * x 0 + b * y 0
    positivity
  · change a * x 0 + b * y 0 ≤ 1
    nlinarith

end Verif
