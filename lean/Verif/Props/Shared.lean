import Verif.Props.Restart
import Verif.Model.Shared
import Verif.Props.InPlace
import Verif.Props.Reruns

/-!
# C127: giving a solver the same operator object several times

For an object whose answers do not depend on its attributes it makes no difference whether one object is given several times or several equal objects are given.  For
an object whose parameter is a function of its call counter the solver runs with interleaved schedules instead.
-/

open scoped RealInnerProductSpace

namespace Verif

variable {E S : Type} [NormedAddCommGroup E] [InnerProductSpace ℝ E]

section Pure
variable {f : MutOp S E} {Inv : S → Prop} {p : ProxOp E}

/-- C127 for `ADMM`, partial: `ADMM(f, f, …)` computes what it computes with the pure operator in both places, if the answers of the object do not depend on its
attributes.  Missing: `C127_admm_refuted`. -/
theorem C127_admm_partial (hf : Computes f Inv p) (sf : S) (hsf : Inv sf) (x0 z0 : Option E) (τ : ℝ) (n : ℕ) (gfirst : Bool) :
    (ADMMShared f sf x0 z0 τ n gfirst).map Prod.snd = ADMM p p x0 z0 τ n gfirst ∧ ∀ r, ADMMShared f sf x0 z0 τ n gfirst = .ok r → Inv r.1 := by
  unfold ADMMShared ADMM
  cases hi : x0z0Init x0 z0 with
  | error er => exact ⟨rfl, by simp [Bind.bind, Except.bind]⟩
  | ok q =>
    simp only [Bind.bind, Except.bind]
    refine forRange_map (J := fun s : S × SplitState E => Inv s.1) (π := Prod.snd) (fun i s hs => ?_) n 0 (sf, ⟨q.1, q.2, 0, []⟩) hsf
    cases gfirst with
    | true =>
      rcases hf.proxPy hs (s.2.x + s.2.u) τ with ⟨er, e1, e2⟩ | ⟨z, s1, e1, e2, e3⟩
      · left; refine ⟨er, ?_, ?_⟩ <;> simp [ADMMShared.body, ADMM.body, e1, e2, Bind.bind, Except.bind]
      rcases hf.proxPy e3 (z - s.2.u) τ with ⟨er, q1, q2⟩ | ⟨x, s2, q1, q2, q3⟩
      · left; refine ⟨er, ?_, ?_⟩ <;> simp [ADMMShared.body, ADMM.body, e1, e2, q1, q2, Bind.bind, Except.bind]
      right
      refine ⟨(s2, ⟨x, z, s.2.u + x - z, s.2.log ++ [(x, z)]⟩), false, ?_, ?_, q3⟩ <;>
        simp [ADMMShared.body, ADMM.body, e1, e2, q1, q2, Bind.bind, Except.bind, Pure.pure, Except.pure]
    | false =>
      rcases hf.proxPy hs (s.2.z - s.2.u) τ with ⟨er, e1, e2⟩ | ⟨x, s1, e1, e2, e3⟩
      · left; refine ⟨er, ?_, ?_⟩ <;> simp [ADMMShared.body, ADMM.body, e1, e2, Bind.bind, Except.bind]
      rcases hf.proxPy e3 (x + s.2.u) τ with ⟨er, q1, q2⟩ | ⟨z, s2, q1, q2, q3⟩
      · left; refine ⟨er, ?_, ?_⟩ <;> simp [ADMMShared.body, ADMM.body, e1, e2, q1, q2, Bind.bind, Except.bind]
      right
      refine ⟨(s2, ⟨x, z, s.2.u + x - z, s.2.log ++ [(x, z)]⟩), false, ?_, ?_, q3⟩ <;>
        simp [ADMMShared.body, ADMM.body, e1, e2, q1, q2, Bind.bind, Except.bind, Pure.pure, Except.pure]

/-- C127 for `HQS`, partial: the same, for an object that does not write into its argument.  Missing: `C98_hqs_refuted`. -/
theorem C127_hqs_partial (hf : Computes f Inv p) (hl : LeavesArg f) (sf : S) (hsf : Inv sf) (x0 z0 : Option E) (tau : StepSpec) (n : ℕ) (gfirst : Bool) :
    (HQSShared f sf x0 z0 tau n gfirst).map Prod.snd = HQS p p x0 z0 tau n gfirst ∧ ∀ r, HQSShared f sf x0 z0 tau n gfirst = .ok r → Inv r.1 := by
  unfold HQSShared HQS
  cases hi : x0z0Init x0 z0 with
  | error er => exact ⟨rfl, by simp [Bind.bind, Except.bind]⟩
  | ok q =>
    simp only [Bind.bind, Except.bind]
    refine forRange_map (J := fun s : S × SplitState E => Inv s.1) (π := Prod.snd) (fun i s hs => ?_) n 0 (sf, ⟨q.1, q.2, 0, []⟩) hsf
    cases ht : tau.at i with
    | error er => left; refine ⟨er, ?_, ?_⟩ <;> simp [HQSShared.body, HQS.body, ht, Bind.bind, Except.bind]
    | ok τ =>
      cases gfirst with
      | true =>
        rcases hf.proxPy hs s.2.x τ with ⟨er, e1, e2⟩ | ⟨z, s1, e1, e2, e3⟩
        · left; refine ⟨er, ?_, ?_⟩ <;> simp [HQSShared.body, HQS.body, ht, e1, e2, Bind.bind, Except.bind]
        rcases hf.proxPy e3 z τ with ⟨er, q1, q2⟩ | ⟨x, s2, q1, q2, q3⟩
        · left; refine ⟨er, ?_, ?_⟩ <;> simp [HQSShared.body, HQS.body, ht, e1, e2, q1, q2, Bind.bind, Except.bind]
        rw [hl] at q2
        right
        refine ⟨(s2, ⟨x, z, s.2.u, s.2.log ++ [(x, z)]⟩), false, ?_, ?_, q3⟩ <;>
          simp [HQSShared.body, HQS.body, ht, e1, e2, q1, q2, Bind.bind, Except.bind, Pure.pure, Except.pure]
      | false =>
        rcases hf.proxPy hs s.2.z τ with ⟨er, e1, e2⟩ | ⟨x, s1, e1, e2, e3⟩
        · left; refine ⟨er, ?_, ?_⟩ <;> simp [HQSShared.body, HQS.body, ht, e1, e2, Bind.bind, Except.bind]
        rcases hf.proxPy e3 x τ with ⟨er, q1, q2⟩ | ⟨z, s2, q1, q2, q3⟩
        · left; refine ⟨er, ?_, ?_⟩ <;> simp [HQSShared.body, HQS.body, ht, e1, e2, q1, q2, Bind.bind, Except.bind]
        rw [hl] at q2
        right
        refine ⟨(s2, ⟨x, z, s.2.u, s.2.log ++ [(x, z)]⟩), false, ?_, ?_, q3⟩ <;>
          simp [HQSShared.body, HQS.body, ht, e1, e2, q1, q2, Bind.bind, Except.bind, Pure.pure, Except.pure]

/-- C127 for `DouglasRachfordSplitting`, partial: the same, and then the two values of `gfirst` give the same.  Missing: `C98_dr_refuted`. -/
theorem C127_dr_partial (hf : Computes f Inv p) (hl : LeavesArg f) (sf : S) (hsf : Inv sf) (x0 : E) (τ η : ℝ) (n : ℕ) (gfirst : Bool) :
    (DRShared f sf x0 τ η n).map Prod.snd = DouglasRachford p p x0 τ η n gfirst ∧ ∀ r, DRShared f sf x0 τ η n = .ok r → Inv r.1 := by
  have main := forRange_map (b1 := DRShared.body f τ η) (b2 := DR.body p p τ η gfirst) (J := fun s : S × DRState E => Inv s.1) (π := Prod.snd) (fun i s hs => by
      rcases hf.proxPy hs s.2.y τ with ⟨er, e1, e2⟩ | ⟨x, s1, e1, e2, e3⟩
      · left; refine ⟨er, ?_, ?_⟩ <;> cases gfirst <;> simp [DRShared.body, DR.body, e1, e2, Bind.bind, Except.bind]
      rw [hl] at e2
      rcases hf.proxPy e3 ((2 : ℝ) • x - s.2.y) τ with ⟨er, q1, q2⟩ | ⟨z, s2, q1, q2, q3⟩
      · left; refine ⟨er, ?_, ?_⟩ <;> cases gfirst <;> simp [DRShared.body, DR.body, e1, e2, q1, q2, Bind.bind, Except.bind]
      right
      refine ⟨(s2, ⟨some x, s.2.y + η • (z - x), s.2.log ++ [(x, s.2.y + η • (z - x))]⟩), false, ?_, ?_, q3⟩ <;> cases gfirst <;>
        simp [DRShared.body, DR.body, e1, e2, q1, q2, Bind.bind, Except.bind, Pure.pure, Except.pure]) n 0 (sf, ⟨none, x0, []⟩) hsf
  unfold DRShared DouglasRachford
  obtain ⟨m1, m2⟩ := main
  rw [← m1]
  cases hr : forRange (DRShared.body f τ η) n 0 (sf, ⟨none, x0, []⟩) with
  | error er => exact ⟨rfl, by simp [Bind.bind, Except.bind]⟩
  | ok r =>
    cases hx : r.2.x with
    | none => simp [hx, Bind.bind, Except.bind, Except.map]
    | some x =>
      refine ⟨by simp [hx, Bind.bind, Except.bind, Except.map, Pure.pure, Except.pure], fun q hq => ?_⟩
      simp only [hx, Bind.bind, Except.bind, Pure.pure, Except.pure, Except.ok.injEq] at hq
      subst hq
      exact m2 r hr

end Pure

section Lists
variable {K : Type} [DecidableEq K] {obj : K → MutOp S E} {Inv : K → S → Prop} {ps : K → ProxOp E}

/-- One list comprehension. -/
lemma proxSeq_pure (hf : ∀ k, Computes (obj k) (Inv k) (ps k)) : ∀ {m : ℕ} (which : Fin m → K) (arg : Fin m → E) (step : Fin m → Py ℝ) (st : K → S), (∀ k, Inv k (st k)) →
    (∃ er, proxSeq obj which arg step st = .error er ∧ mapPy (fun i => (step i).bind ((ps (which i)).prox (arg i))) = .error er) ∨
      ∃ (st' : K → S) (r : Fin m → E × E), proxSeq obj which arg step st = .ok (st', r) ∧ mapPy (fun i => (step i).bind ((ps (which i)).prox (arg i))) = .ok (fun i => (r i).1) ∧
        (∀ k, Inv k (st' k)) ∧ ((∀ k, LeavesArg (obj k)) → ∀ i, (r i).2 = arg i) := by
  intro m
  induction m with
  | zero =>
    intro which arg step st hst
    exact .inr ⟨st, Fin.elim0, rfl, by simp only [mapPy]; congr 1; exact Subsingleton.elim _ _, hst, fun _ i => i.elim0⟩
  | succ m ih =>
    intro which arg step st hst
    cases h0 : step 0 with
    | error er => exact .inl ⟨er, by simp [proxSeq, h0, Bind.bind, Except.bind], by simp [mapPy, h0, Except.bind]⟩
    | ok τ =>
      rcases (hf (which 0)).proxPy (hst (which 0)) (arg 0) τ with ⟨er, e1, e2⟩ | ⟨q, s', e1, e2, e3⟩
      · exact .inl ⟨er, by simp [proxSeq, h0, e2, Bind.bind, Except.bind], by simp [mapPy, h0, e1, Except.bind]⟩
      have hb : (step 0).bind ((ps (which 0)).prox (arg 0)) = .ok q := by rw [h0]; exact e1
      have hst' : ∀ k, Inv k (Function.update st (which 0) s' k) := fun k => by
        by_cases hk : k = which 0
        · subst hk; simpa using e3
        · simpa [Function.update_of_ne hk] using hst k
      rcases ih (fun i => which i.succ) (fun i => arg i.succ) (fun i => step i.succ) _ hst' with ⟨er, q1, q2⟩ | ⟨st', r, q1, q2, q3, q4⟩
      · exact .inl ⟨er, by simp [proxSeq, h0, e2, q1, Bind.bind, Except.bind], by simp only [mapPy, hb, q2]⟩
      · refine .inr ⟨st', Fin.cons (q, ((obj (which 0)).prox (st (which 0)) (arg 0) τ).2.2) r, by simp [proxSeq, h0, e2, q1, Bind.bind, Except.bind, Pure.pure, Except.pure], ?_, q3, fun hl i => ?_⟩
        · simp only [mapPy, hb, q2]
          congr 1
          funext i
          refine Fin.cases ?_ (fun j => ?_) i <;> simp
        · refine Fin.cases ?_ (fun j => ?_) i
          · exact hl (which 0) _ _ _
          · exact q4 hl j

/-- C127 for `PPXA`, partial: on a list in which objects are repeated it computes what it computes with the pure operators, if the answers of the objects do not depend
on their attributes and no object writes into its argument.  Missing: `C98_ppxa_refuted` and `C127_ppxa_schedule`. -/
theorem C127_ppxa_partial (hf : ∀ k, Computes (obj k) (Inv k) (ps k)) (hl : ∀ k, LeavesArg (obj k)) {m : ℕ} (which : Fin m → K) (st : K → S) (hst : ∀ k, Inv k (st k)) (w : Fin m → ℝ)
    (y0 : Fin m → E) (τ η : ℝ) (n : ℕ) (tol : ℝ) (mx : E → ℝ) :
    (PPXAShared obj which st w y0 τ η n tol mx).map Prod.snd = PPXA (fun i => ps (which i)) (some w) y0 τ η n tol mx ∧
      ∀ r, PPXAShared obj which st w y0 τ η n tol mx = .ok r → ∀ k, Inv k (r.1 k) := by
  unfold PPXAShared PPXA
  by_cases hm : m = 0
  · rw [if_pos hm, if_pos hm]; exact ⟨rfl, by simp⟩
  rw [if_neg hm, if_neg hm]
  refine forRange_map (J := fun s : (K → S) × PPXAState E m => ∀ k, Inv k (s.1 k)) (π := Prod.snd) (fun i s hs => ?_) n 0 (st, _) hst
  have hstep : (fun i => ((if w i = 0 then .error .nanResult else .ok (τ / w i) : Py ℝ)).bind ((ps (which i)).prox (s.2.y i))) =
      fun i => if w i = 0 then .error .nanResult else (ps (which i)).prox (s.2.y i) (τ / w i) := by
    funext i; by_cases hw : w i = 0 <;> simp [hw, Except.bind]
  rcases proxSeq_pure hf which s.2.y (fun i => if w i = 0 then .error .nanResult else .ok (τ / w i)) s.1 hs with ⟨er, e1, e2⟩ | ⟨st', r, e1, e2, e3, e4⟩
  · rw [hstep] at e2
    left; refine ⟨er, ?_, ?_⟩
    · unfold PPXAShared.body; rw [e1]; rfl
    · unfold PPXA.body; rw [e2]; rfl
  · rw [hstep] at e2
    have e4 := e4 hl
    right
    unfold PPXAShared.body PPXA.body
    rw [e1, e2]
    simp only [Bind.bind, Except.bind, Pure.pure, Except.pure, e4]
    by_cases hc : mx (s.2.x + η • (∑ i, w i • (r i).1 - s.2.x) - s.2.xold) < tol
    · simp only [if_pos hc]; exact ⟨_, _, rfl, rfl, e3⟩
    · simp only [if_neg hc]; exact ⟨_, _, rfl, rfl, e3⟩

/-- C127 for `ConsensusADMM`, partial: the same, also for objects that write into their argument.  Missing: objects whose answers depend on their attributes. -/
theorem C127_consensus_partial (hf : ∀ k, Computes (obj k) (Inv k) (ps k)) {m : ℕ} (which : Fin m → K) (st : K → S) (hst : ∀ k, Inv k (st k)) (x0 : E) (τ : ℝ) (n : ℕ) (tol : ℝ)
    (mx : E → ℝ) :
    (ConsensusShared obj which st x0 τ n tol mx).map Prod.snd = ConsensusADMM (fun i => ps (which i)) x0 τ n tol mx ∧
      ∀ r, ConsensusShared obj which st x0 τ n tol mx = .ok r → ∀ k, Inv k (r.1 k) := by
  unfold ConsensusShared ConsensusADMM
  refine forRange_map (J := fun s : (K → S) × ConsState E m => ∀ k, Inv k (s.1 k)) (π := Prod.snd) (fun i s hs => ?_) n 0 (st, _) hst
  rcases proxSeq_pure hf which (fun i => s.2.xbar - s.2.y i) (fun _ => .ok τ) s.1 hs with ⟨er, e1, e2⟩ | ⟨st', r, e1, e2, e3, -⟩
  · left; refine ⟨er, ?_, ?_⟩
    · unfold ConsensusShared.body; rw [e1]; rfl
    · unfold ConsensusADMM.body; simp only [Except.bind] at e2; rw [e2]; rfl
  · simp only [Except.bind] at e2
    unfold ConsensusShared.body ConsensusADMM.body
    rw [e1, e2]
    simp only [Bind.bind, Except.bind, Pure.pure, Except.pure]
    by_cases hm : m = 0
    · left; simp only [if_pos hm]; exact ⟨_, rfl, rfl⟩
    right
    simp only [if_neg hm]
    by_cases hc : mx ((1 / (m : ℝ)) • ∑ i, (r i).1 - s.2.xold) < tol
    · simp only [if_pos hc]; exact ⟨_, _, rfl, rfl, e3⟩
    · simp only [if_neg hc]; exact ⟨_, _, rfl, rfl, e3⟩

end Lists

/-! ## Objects that write into their argument -/

section Writing
variable {f : MutOp S E}

/-- The answers of the object, and what it writes into its argument, are the same whatever its attributes. -/
def StateFree {S : Type} (f : MutOp S E) : Prop := ∀ s t x τ, (f.prox s x τ).2 = (f.prox t x τ).2

lemma StateFree.proxPy (h : StateFree f) (s t : S) (x : E) (τ : ℝ) :
    (∃ er, f.proxPy s x τ = .error er ∧ f.proxPy t x τ = .error er) ∨ ∃ s' t' r, f.proxPy s x τ = .ok (s', r) ∧ f.proxPy t x τ = .ok (t', r) := by
  have e := h s t x τ
  unfold MutOp.proxPy
  cases hs : (f.prox s x τ).2.1 with
  | error er =>
    rw [e] at hs
    exact .inl ⟨er, rfl, by rw [hs]; rfl⟩
  | ok v =>
    rw [e] at hs
    exact .inr ⟨_, _, (v, (f.prox s x τ).2.2), rfl, by rw [hs, e]; rfl⟩

/-- C127 for `HQS` with an object that writes into its argument: giving it twice is giving two objects that do so. -/
theorem C127_hqs_writing (h : StateFree f) (sf s1 s2 : S) (x0 z0 : Option E) (tau : StepSpec) (n : ℕ) (gfirst : Bool) :
    (HQSShared f sf x0 z0 tau n gfirst).map Prod.snd = (HQSMut f f s1 s2 x0 z0 tau n gfirst).map (fun r => r.2.2) := by
  unfold HQSShared HQSMut
  cases hi : x0z0Init x0 z0 with
  | error er => rfl
  | ok q =>
    simp only [Bind.bind, Except.bind]
    rcases forRange_sim (b1 := HQSShared.body f tau gfirst) (b2 := HQSMut.body f f tau gfirst) (R := fun (s : S × SplitState E) (t : S × S × SplitState E) => s.2 = t.2.2) (fun i s t hst => by
        obtain ⟨a, v⟩ := s
        obtain ⟨b, c, v'⟩ := t
        simp only at hst
        subst hst
        cases ht : tau.at i with
        | error er => left; refine ⟨er, ?_, ?_⟩ <;> simp [HQSShared.body, HQSMut.body, ht, Bind.bind, Except.bind]
        | ok τ =>
          cases gfirst with
          | true =>
            rcases h.proxPy a c v.x τ with ⟨er, e1, e2⟩ | ⟨a', c', r, e1, e2⟩
            · left; refine ⟨er, ?_, ?_⟩ <;> simp [HQSShared.body, HQSMut.body, ht, e1, e2, Bind.bind, Except.bind]
            rcases h.proxPy a' b r.1 τ with ⟨er, q1, q2⟩ | ⟨a2, b2, r2, q1, q2⟩
            · left; refine ⟨er, ?_, ?_⟩ <;> simp [HQSShared.body, HQSMut.body, ht, e1, e2, q1, q2, Bind.bind, Except.bind]
            right
            refine ⟨(a2, ⟨r2.1, r2.2, v.u, v.log ++ [(r2.1, r2.2)]⟩), (b2, c', ⟨r2.1, r2.2, v.u, v.log ++ [(r2.1, r2.2)]⟩), false, ?_, ?_, rfl⟩ <;>
              simp [HQSShared.body, HQSMut.body, ht, e1, e2, q1, q2, Bind.bind, Except.bind, Pure.pure, Except.pure]
          | false =>
            rcases h.proxPy a b v.z τ with ⟨er, e1, e2⟩ | ⟨a', b', r, e1, e2⟩
            · left; refine ⟨er, ?_, ?_⟩ <;> simp [HQSShared.body, HQSMut.body, ht, e1, e2, Bind.bind, Except.bind]
            rcases h.proxPy a' c r.1 τ with ⟨er, q1, q2⟩ | ⟨a2, c2, r2, q1, q2⟩
            · left; refine ⟨er, ?_, ?_⟩ <;> simp [HQSShared.body, HQSMut.body, ht, e1, e2, q1, q2, Bind.bind, Except.bind]
            right
            refine ⟨(a2, ⟨r2.2, r2.1, v.u, v.log ++ [(r2.2, r2.1)]⟩), (b', c2, ⟨r2.2, r2.1, v.u, v.log ++ [(r2.2, r2.1)]⟩), false, ?_, ?_, rfl⟩ <;>
              simp [HQSShared.body, HQSMut.body, ht, e1, e2, q1, q2, Bind.bind, Except.bind, Pure.pure, Except.pure]) n 0 (sf, ⟨q.1, q.2, 0, []⟩) (s1, s2, ⟨q.1, q.2, 0, []⟩) rfl with
      ⟨er, e1, e2⟩ | ⟨u, t, e1, e2, e3⟩
    · rw [e1, e2]; rfl
    · rw [e1, e2]; simp only [Except.map]; rw [e3]

/-- C127 for `DouglasRachfordSplitting` with an object that writes into its argument. -/
theorem C127_dr_writing (h : StateFree f) (sf s1 s2 : S) (x0 : E) (τ η : ℝ) (n : ℕ) (gfirst : Bool) :
    (DRShared f sf x0 τ η n).map Prod.snd = (DRMut f f s1 s2 x0 τ η n gfirst).map (fun r => r.2.2) := by
  unfold DRShared DRMut
  rcases forRange_sim (b1 := DRShared.body f τ η) (b2 := DRMut.body f f τ η gfirst) (R := fun (s : S × DRState E) (t : S × S × DRState E) => s.2 = t.2.2) (fun i s t hst => by
      obtain ⟨a, v⟩ := s
      obtain ⟨b, c, v'⟩ := t
      simp only at hst
      subst hst
      rcases h.proxPy a (if gfirst then c else b) v.y τ with ⟨er, e1, e2⟩ | ⟨a', c', r, e1, e2⟩
      · left; refine ⟨er, ?_, ?_⟩ <;> cases gfirst <;> simp_all [DRShared.body, DRMut.body, Bind.bind, Except.bind]
      rcases h.proxPy a' (if gfirst then b else c) ((2 : ℝ) • r.1 - r.2) τ with ⟨er, q1, q2⟩ | ⟨a2, b2, r2, q1, q2⟩
      · left; refine ⟨er, ?_, ?_⟩ <;> cases gfirst <;> simp_all [DRShared.body, DRMut.body, Bind.bind, Except.bind]
      right
      refine ⟨(a2, ⟨some r.1, r.2 + η • (r2.1 - r.1), v.log ++ [(r.1, r.2 + η • (r2.1 - r.1))]⟩),
        (if gfirst then b2 else c', if gfirst then c' else b2, ⟨some r.1, r.2 + η • (r2.1 - r.1), v.log ++ [(r.1, r.2 + η • (r2.1 - r.1))]⟩), false, ?_, ?_, rfl⟩ <;> cases gfirst <;>
        simp_all [DRShared.body, DRMut.body, Bind.bind, Except.bind, Pure.pure, Except.pure]) n 0 (sf, ⟨none, x0, []⟩) (s1, s2, ⟨none, x0, []⟩) rfl with
    ⟨er, e1, e2⟩ | ⟨u, t, e1, e2, e3⟩
  · rw [e1, e2]; rfl
  · rw [e1, e2]
    simp only [Bind.bind, Except.bind]
    rw [e3]
    cases t.2.2.x <;> rfl

lemma StateFree.proxSeq {K : Type} [DecidableEq K] {obj : K → MutOp S E} (h : ∀ k, StateFree (obj k)) : ∀ {m : ℕ} (which : Fin m → K) (arg : Fin m → E) (step : Fin m → Py ℝ) (st : K → S)
    (sf : Fin m → S),
    (∃ er, proxSeq obj which arg step st = .error er ∧ mapPy (fun i => (step i).bind ((obj (which i)).proxPy (sf i) (arg i))) = .error er) ∨
      ∃ (st' : K → S) (r : Fin m → S × E × E), proxSeq obj which arg step st = .ok (st', fun i => (r i).2) ∧
        mapPy (fun i => (step i).bind ((obj (which i)).proxPy (sf i) (arg i))) = .ok r := by
  intro m
  induction m with
  | zero =>
    intro which arg step st sf
    exact .inr ⟨st, Fin.elim0, by simp only [Verif.proxSeq]; congr 2; funext i; exact i.elim0, by simp only [mapPy]; first | done | (congr 1; exact Subsingleton.elim _ _)⟩
  | succ m ih =>
    intro which arg step st sf
    cases h0 : step 0 with
    | error er => exact .inl ⟨er, by simp [Verif.proxSeq, h0, Bind.bind, Except.bind], by simp [mapPy, h0, Except.bind]⟩
    | ok τ =>
      rcases (h (which 0)).proxPy (st (which 0)) (sf 0) (arg 0) τ with ⟨er, e1, e2⟩ | ⟨s', t', r0, e1, e2⟩
      · exact .inl ⟨er, by simp [Verif.proxSeq, h0, e1, Bind.bind, Except.bind], by simp [mapPy, h0, e2, Except.bind]⟩
      have hb : (step 0).bind ((obj (which 0)).proxPy (sf 0) (arg 0)) = .ok (t', r0) := by rw [h0]; exact e2
      rcases ih (fun i => which i.succ) (fun i => arg i.succ) (fun i => step i.succ) (Function.update st (which 0) s') (fun i => sf i.succ) with ⟨er, q1, q2⟩ | ⟨st', r, q1, q2⟩
      · exact .inl ⟨er, by simp [Verif.proxSeq, h0, e1, q1, Bind.bind, Except.bind], by simp only [mapPy, hb, q2]⟩
      · refine .inr ⟨st', Fin.cons (t', r0) r, ?_, ?_⟩
        · simp only [Verif.proxSeq, h0, e1, q1, Bind.bind, Except.bind, Pure.pure, Except.pure]
          congr 2
          funext i
          refine Fin.cases ?_ (fun j => ?_) i <;> simp
        · simp only [mapPy, hb, q2]

/-- C127 for `PPXA` with objects that write into their argument: repeating an object in the list is giving several objects that do so. -/
theorem C127_ppxa_writing {K : Type} [DecidableEq K] {obj : K → MutOp S E} (h : ∀ k, StateFree (obj k)) {m : ℕ} (which : Fin m → K) (st : K → S) (sf : Fin m → S) (w : Fin m → ℝ)
    (y0 : Fin m → E) (τ η : ℝ) (n : ℕ) (tol : ℝ) (mx : E → ℝ) :
    (PPXAShared obj which st w y0 τ η n tol mx).map Prod.snd = (PPXAMut (fun i => obj (which i)) sf w y0 τ η n tol mx).map Prod.snd := by
  unfold PPXAShared PPXAMut
  by_cases hm : m = 0
  · rw [if_pos hm, if_pos hm]; rfl
  rw [if_neg hm, if_neg hm]
  rcases forRange_sim (b1 := PPXAShared.body obj which w τ η tol mx) (b2 := PPXAMut.body (fun i => obj (which i)) w τ η tol mx)
      (R := fun (s : (K → S) × PPXAState E m) (t : (Fin m → S) × PPXAState E m) => s.2 = t.2) (fun i s t hst => by
        obtain ⟨a, v⟩ := s
        obtain ⟨b, v'⟩ := t
        simp only at hst
        subst hst
        have hstep : (fun i => ((if w i = 0 then .error .nanResult else .ok (τ / w i) : Py ℝ)).bind ((obj (which i)).proxPy (b i) (v.y i))) =
            fun i => if w i = 0 then .error .nanResult else (obj (which i)).proxPy (b i) (v.y i) (τ / w i) := by
          funext i; by_cases hw : w i = 0 <;> simp [hw, Except.bind]
        rcases StateFree.proxSeq h which v.y (fun i => if w i = 0 then .error .nanResult else .ok (τ / w i)) a b with ⟨er, e1, e2⟩ | ⟨st', r, e1, e2⟩
        · rw [hstep] at e2
          left; refine ⟨er, ?_, ?_⟩
          · unfold PPXAShared.body; rw [e1]; rfl
          · unfold PPXAMut.body; rw [e2]; rfl
        · rw [hstep] at e2
          right
          unfold PPXAShared.body PPXAMut.body
          rw [e1, e2]
          simp only [Bind.bind, Except.bind, Pure.pure, Except.pure]
          by_cases hc : mx (v.x + η • (∑ i, w i • (r i).2.1 - v.x) - v.xold) < tol
          · simp only [if_pos hc]; exact ⟨_, _, _, rfl, rfl, rfl⟩
          · simp only [if_neg hc]; exact ⟨_, _, _, rfl, rfl, rfl⟩) n 0
      (st, ⟨(1 / (m : ℝ)) • ∑ i, y0 i, (1 / (m : ℝ)) • ∑ i, y0 i, y0, []⟩) (sf, ⟨(1 / (m : ℝ)) • ∑ i, y0 i, (1 / (m : ℝ)) • ∑ i, y0 i, y0, []⟩) rfl with
    ⟨er, e1, e2⟩ | ⟨u, t, e1, e2, e3⟩
  · rw [e1, e2]; rfl
  · rw [e1, e2]; simp only [Except.map]; rw [e3]

/-- `L2` with `q` and without `Op` is such an object: it writes into its argument. -/
lemma l2Lin_stateFree {H C : Type} [NormedAddCommGroup H] [InnerProductSpace ℝ H] (ext : L2Ext E H C) (s : ℝ) (q : E) : StateFree (L2.toMut ext (l2Lin (H := H) s q)) := by
  intro a b x τ
  simp only [L2.toMut, L2.prox]
  split <;> rfl

/-- C127 fails for `PPXA` on a list that repeats one `L2(sigma, q=q)` object: the iterates are unbounded, although the sum of the functions is strongly convex. -/
theorem C127_ppxa_writing_refuted {H C : Type} [NormedAddCommGroup H] [InnerProductSpace ℝ H] {m : ℕ} [NeZero m] (ext : L2Ext E H C) {s τ η : ℝ} (hs : 0 < s) (hτ : 0 < τ) (hη : 0 < η)
    {q : E} (hq : q ≠ 0) (st : L2State E C) (y0 : Fin m → E) (mx : E → ℝ) (hmx : ∀ v, 0 ≤ mx v) :
    ∃ X : ℕ → PPXAState E m, (∀ n, (PPXAShared (fun _ : Unit => L2.toMut ext (l2Lin (H := H) s q)) (fun _ => ()) (fun _ => st) (fun _ => 1 / (m : ℝ)) y0 τ η n 0 mx).map Prod.snd = .ok (X n)) ∧
      ¬ ∃ M, ∀ n, ‖(X n).x‖ ≤ M := by
  obtain ⟨R, h1, h2⟩ := C98_ppxa_refuted ext hs hτ hη (fun _ : Fin m => q) (by
    rw [Finset.sum_const, Finset.card_univ, Fintype.card_fin, ← Nat.cast_smul_eq_nsmul ℝ]
    exact smul_ne_zero (by exact_mod_cast NeZero.ne m) hq) (fun _ => st) y0 mx hmx
  refine ⟨fun n => (R n).2, fun n => ?_, h2⟩
  rw [C127_ppxa_writing (fun _ => l2Lin_stateFree ext s q) _ _ (fun _ => st), h1 n]
  rfl

end Writing

/-! ## Parameters that are functions of the call counter -/

/-- The operator whose `k`-th call does what call `c + (k - 1) m + j` of `D` does. -/
def CountedClass.every (D : CountedClass E) (c m j : ℕ) : CountedClass E := { D with body := fun k => D.body (c + (k - 1) * m + j) }

lemma every_proxPy (D : CountedClass E) (c m j k : ℕ) (x : E) {τ : ℝ} (hτ : 0 < τ) :
    (D.every c m j).toMut.proxPy k x τ = (D.body (c + k * m + j) x τ).map fun p => (k + 1, p, x) := by
  rw [counted_proxPy _ _ _ hτ]; simp [CountedClass.every]

/-- C127: an object with a counter given twice to `ADMM` is like two objects, of which the one called first gets the parameters with odd and the other one those with even
index (counted from the counter `c` before the run).  The counter moves by two per iteration. -/
theorem C127_admm_schedule (D : CountedClass E) (c : ℕ) (x0 z0 : Option E) {τ : ℝ} (hτ : 0 < τ) (n : ℕ) (gfirst : Bool) :
    (ADMMShared D.toMut c x0 z0 τ n gfirst).map (fun r => (r.1, r.2)) =
      (ADMMMut (D.every c 2 (if gfirst then 2 else 1)).toMut (D.every c 2 (if gfirst then 1 else 2)).toMut 0 0 x0 z0 τ n gfirst).map (fun r => (c + 2 * r.1, r.2.2)) := by
  unfold ADMMShared ADMMMut
  cases hi : x0z0Init x0 z0 with
  | error er => rfl
  | ok q =>
    simp only [Bind.bind, Except.bind]
    rcases forRange_sim (b1 := ADMMShared.body D.toMut τ gfirst)
        (b2 := ADMMMut.body (D.every c 2 (if gfirst then 2 else 1)).toMut (D.every c 2 (if gfirst then 1 else 2)).toMut τ gfirst)
        (R := fun (s : ℕ × SplitState E) (t : ℕ × ℕ × SplitState E) => s.1 = c + 2 * t.1 ∧ t.2.1 = t.1 ∧ s.2 = t.2.2) (fun i s t hst => by
          obtain ⟨k, l, v⟩ := t
          obtain ⟨a, b⟩ := s
          obtain ⟨rfl, rfl, rfl⟩ : a = c + 2 * k ∧ l = k ∧ b = v := hst
          cases gfirst with
          | true =>
            simp only [ADMMShared.body, ADMMMut.body, if_true, every_proxPy _ _ _ _ _ _ hτ, counted_proxPy _ _ _ hτ, Nat.mul_comm l 2]
            cases hz : D.body (c + 2 * l + 1) (b.x + b.u) τ with
            | error er => left; exact ⟨er, rfl, rfl⟩
            | ok z =>
              simp only [Except.map, Bind.bind, Except.bind, show c + 2 * l + 1 + 1 = c + 2 * l + 2 from rfl]
              cases hx : D.body (c + 2 * l + 2) (z - b.u) τ with
              | error er => left; exact ⟨er, rfl, rfl⟩
              | ok x =>
                right; exact ⟨_, _, _, rfl, rfl, by show c + 2 * l + 2 = c + 2 * (l + 1); ring, rfl, rfl⟩
          | false =>
            simp only [ADMMShared.body, ADMMMut.body, if_false, Bool.false_eq_true, every_proxPy _ _ _ _ _ _ hτ, counted_proxPy _ _ _ hτ, Nat.mul_comm l 2]
            cases hz : D.body (c + 2 * l + 1) (b.z - b.u) τ with
            | error er => left; exact ⟨er, rfl, rfl⟩
            | ok x =>
              simp only [Except.map, Bind.bind, Except.bind, show c + 2 * l + 1 + 1 = c + 2 * l + 2 from rfl]
              cases hx : D.body (c + 2 * l + 2) (x + b.u) τ with
              | error er => left; exact ⟨er, rfl, rfl⟩
              | ok z =>
                right; exact ⟨_, _, _, rfl, rfl, by show c + 2 * l + 2 = c + 2 * (l + 1); ring, rfl, rfl⟩) n 0 (c, ⟨q.1, q.2, 0, []⟩) (0, 0, ⟨q.1, q.2, 0, []⟩) ⟨rfl, rfl, rfl⟩ with
      ⟨er, e1, e2⟩ | ⟨s, t, e1, e2, h1, h2, h3⟩
    · rw [e1, e2]; rfl
    · rw [e1, e2]; simp only [Except.map]; rw [h1, h3]

/-- A counted object in all places of a list: call `i` of the list comprehension is call `a + i + 1` of the object. -/
lemma shared_proxSeq (D : CountedClass E) : ∀ (l : ℕ) (arg : Fin l → E) (st : Fin l → ℝ) (_ : ∀ i, 0 < st i) (a : ℕ),
    proxSeq (fun _ : Unit => D.toMut) (fun _ : Fin l => ()) arg (fun i => .ok (st i)) (fun _ => a) =
      (mapPy fun i : Fin l => D.body (a + i + 1) (arg i) (st i)).map fun r => (fun _ => a + l, fun i => (r i, arg i)) := by
  intro l
  induction l with
  | zero => intro arg st _ a; simp only [proxSeq, mapPy, Except.map]; congr 2; exact Subsingleton.elim _ _
  | succ l ih =>
    intro arg st hst a
    simp only [proxSeq, mapPy, Bind.bind, Except.bind, counted_proxPy _ _ _ (hst 0)]
    simp only [Fin.val_zero, Nat.add_zero]
    cases h0 : D.body (a + 1) (arg 0) (st 0) with
    | error er => rfl
    | ok q =>
      simp only [Except.map]
      have hupd : Function.update (fun _ : Unit => a) () (a + 1) = fun _ => a + 1 := by funext u; simp
      rw [hupd, ih _ _ (fun i => hst i.succ) (a + 1)]
      have hidx : (fun i : Fin l => D.body (a + 1 + i + 1) (arg i.succ) (st i.succ)) = fun i : Fin l => D.body (a + (i.succ : Fin (l + 1)) + 1) (arg i.succ) (st i.succ) := by
        funext i; rw [Fin.val_succ, show a + 1 + (i : ℕ) + 1 = a + ((i : ℕ) + 1) + 1 by omega]
      rw [hidx]
      cases mapPy fun i : Fin l => D.body (a + (i.succ : Fin (l + 1)) + 1) (arg i.succ) (st i.succ) with
      | error er => rfl
      | ok t =>
        simp only [Except.map, Pure.pure, Except.pure]
        congr 2
        · funext _; omega
        · funext i; refine Fin.cases ?_ (fun j => ?_) i <;> simp

lemma shared_mapPy : ∀ (l : ℕ) (h : Fin l → Py E) (arg : Fin l → E) (k : ℕ), mapPy (fun i => (h i).map fun p => (k, p, arg i)) = (mapPy h).map fun r i => (k, r i, arg i) := by
  intro l
  induction l with
  | zero => intro h arg k; simp only [mapPy, Except.map]; congr 1; exact Subsingleton.elim _ _
  | succ l ih =>
    intro h arg k
    simp only [mapPy]
    cases h 0 with
    | error er => rfl
    | ok q =>
      have := ih (fun i => h i.succ) (fun i => arg i.succ) k
      simp only [Except.map] at this ⊢
      rw [this]
      cases mapPy fun i => h i.succ with
      | error er => rfl
      | ok t =>
        simp only
        congr 1
        funext i; refine Fin.cases ?_ (fun j => ?_) i <;> simp

/-- C127: the same for `HQS`. -/
theorem C127_hqs_schedule (D : CountedClass E) (c : ℕ) (x0 z0 : Option E) {tau : StepSpec} {τ : ℕ → ℝ} (ht : ∀ i, tau.at i = .ok (τ i)) (hτ : ∀ i, 0 < τ i) (n : ℕ) (gfirst : Bool) :
    (HQSShared D.toMut c x0 z0 tau n gfirst).map (fun r => (r.1, r.2)) =
      (HQSMut (D.every c 2 (if gfirst then 2 else 1)).toMut (D.every c 2 (if gfirst then 1 else 2)).toMut 0 0 x0 z0 tau n gfirst).map (fun r => (c + 2 * r.1, r.2.2)) := by
  unfold HQSShared HQSMut
  cases hi : x0z0Init x0 z0 with
  | error er => rfl
  | ok q =>
    simp only [Bind.bind, Except.bind]
    rcases forRange_sim (b1 := HQSShared.body D.toMut tau gfirst)
        (b2 := HQSMut.body (D.every c 2 (if gfirst then 2 else 1)).toMut (D.every c 2 (if gfirst then 1 else 2)).toMut tau gfirst)
        (R := fun (s : ℕ × SplitState E) (t : ℕ × ℕ × SplitState E) => s.1 = c + 2 * t.1 ∧ t.2.1 = t.1 ∧ s.2 = t.2.2) (fun i s t hst => by
          obtain ⟨k, l, v⟩ := t
          obtain ⟨a, b⟩ := s
          obtain ⟨rfl, rfl, rfl⟩ : a = c + 2 * k ∧ l = k ∧ b = v := hst
          cases gfirst with
          | true =>
            simp only [HQSShared.body, HQSMut.body, ht, py_ok_bind, if_true, every_proxPy _ _ _ _ _ _ (hτ i), counted_proxPy _ _ _ (hτ i), Nat.mul_comm l 2]
            cases hz : D.body (c + 2 * l + 1) b.x (τ i) with
            | error er => left; exact ⟨er, rfl, rfl⟩
            | ok z =>
              simp only [Except.map, Bind.bind, Except.bind, show c + 2 * l + 1 + 1 = c + 2 * l + 2 from rfl]
              cases hx : D.body (c + 2 * l + 2) z (τ i) with
              | error er => left; exact ⟨er, rfl, rfl⟩
              | ok x =>
                right; exact ⟨_, _, _, rfl, rfl, by show c + 2 * l + 2 = c + 2 * (l + 1); ring, rfl, rfl⟩
          | false =>
            simp only [HQSShared.body, HQSMut.body, ht, py_ok_bind, if_false, Bool.false_eq_true, every_proxPy _ _ _ _ _ _ (hτ i), counted_proxPy _ _ _ (hτ i), Nat.mul_comm l 2]
            cases hz : D.body (c + 2 * l + 1) b.z (τ i) with
            | error er => left; exact ⟨er, rfl, rfl⟩
            | ok x =>
              simp only [Except.map, Bind.bind, Except.bind, show c + 2 * l + 1 + 1 = c + 2 * l + 2 from rfl]
              cases hx : D.body (c + 2 * l + 2) x (τ i) with
              | error er => left; exact ⟨er, rfl, rfl⟩
              | ok z =>
                right; exact ⟨_, _, _, rfl, rfl, by show c + 2 * l + 2 = c + 2 * (l + 1); ring, rfl, rfl⟩) n 0 (c, ⟨q.1, q.2, 0, []⟩) (0, 0, ⟨q.1, q.2, 0, []⟩) ⟨rfl, rfl, rfl⟩ with
      ⟨er, e1, e2⟩ | ⟨s, t, e1, e2, h1, h2, h3⟩
    · rw [e1, e2]; rfl
    · rw [e1, e2]; simp only [Except.map]; rw [h1, h3]

/-- C127: the same for `DouglasRachfordSplitting`. -/
theorem C127_dr_schedule (D : CountedClass E) (c : ℕ) (x0 : E) {τ : ℝ} (hτ : 0 < τ) (η : ℝ) (n : ℕ) (gfirst : Bool) :
    DRShared D.toMut c x0 τ η n =
      (DRMut (D.every c 2 (if gfirst then 2 else 1)).toMut (D.every c 2 (if gfirst then 1 else 2)).toMut 0 0 x0 τ η n gfirst).map (fun r => (c + 2 * r.1, r.2.2)) := by
  unfold DRShared DRMut
  rcases forRange_sim (b1 := DRShared.body D.toMut τ η)
      (b2 := DRMut.body (D.every c 2 (if gfirst then 2 else 1)).toMut (D.every c 2 (if gfirst then 1 else 2)).toMut τ η gfirst)
      (R := fun (s : ℕ × DRState E) (t : ℕ × ℕ × DRState E) => s.1 = c + 2 * t.1 ∧ t.2.1 = t.1 ∧ s.2 = t.2.2) (fun i s t hst => by
        obtain ⟨k, l, v⟩ := t
        obtain ⟨a, b⟩ := s
        obtain ⟨rfl, rfl, rfl⟩ : a = c + 2 * k ∧ l = k ∧ b = v := hst
        cases gfirst with
        | true =>
          simp only [DRShared.body, DRMut.body, if_true, every_proxPy _ _ _ _ _ _ hτ, counted_proxPy _ _ _ hτ, Nat.mul_comm l 2]
          cases hz : D.body (c + 2 * l + 1) b.y τ with
          | error er => left; exact ⟨er, rfl, rfl⟩
          | ok x =>
            simp only [Except.map, Bind.bind, Except.bind, show c + 2 * l + 1 + 1 = c + 2 * l + 2 from rfl]
            cases hx : D.body (c + 2 * l + 2) ((2 : ℝ) • x - b.y) τ with
            | error er => left; exact ⟨er, rfl, rfl⟩
            | ok p =>
              right; exact ⟨_, _, _, rfl, rfl, by show c + 2 * l + 2 = c + 2 * (l + 1); ring, rfl, rfl⟩
        | false =>
          simp only [DRShared.body, DRMut.body, if_false, Bool.false_eq_true, every_proxPy _ _ _ _ _ _ hτ, counted_proxPy _ _ _ hτ, Nat.mul_comm l 2]
          cases hz : D.body (c + 2 * l + 1) b.y τ with
          | error er => left; exact ⟨er, rfl, rfl⟩
          | ok x =>
            simp only [Except.map, Bind.bind, Except.bind, show c + 2 * l + 1 + 1 = c + 2 * l + 2 from rfl]
            cases hx : D.body (c + 2 * l + 2) ((2 : ℝ) • x - b.y) τ with
            | error er => left; exact ⟨er, rfl, rfl⟩
            | ok p =>
              right; exact ⟨_, _, _, rfl, rfl, by show c + 2 * l + 2 = c + 2 * (l + 1); ring, rfl, rfl⟩) n 0 (c, ⟨none, x0, []⟩) (0, 0, ⟨none, x0, []⟩) ⟨rfl, rfl, rfl⟩ with
    ⟨er, e1, e2⟩ | ⟨s, t, e1, e2, h1, h2, h3⟩
  · rw [e1, e2]; rfl
  · rw [e1, e2]
    simp only [Bind.bind, Except.bind, h1, h3]
    cases t.2.2.x <;> rfl

/-- C127: an object with a counter in all `m` places of the list given to `ConsensusADMM`, run without stopping: in iteration `n` the function in place `i` gets the parameters with index
`c + n m + i + 1`. -/
theorem C127_consensus_schedule (D : CountedClass E) (c : ℕ) {m : ℕ} (hm : m ≠ 0) (x0 : E) {τ : ℝ} (hτ : 0 < τ) (n : ℕ) {tol : ℝ} {mx : E → ℝ} (hx : ∀ x, tol ≤ mx x) :
    (ConsensusShared (m := m) (fun _ : Unit => D.toMut) (fun _ => ()) (fun _ => c) x0 τ (n + 1) tol mx).map (fun r => (r.1 (), r.2.xbar, r.2.x, r.2.y)) = (do
      let s ← ConsensusShared (m := m) (fun _ : Unit => D.toMut) (fun _ => ()) (fun _ => c) x0 τ n tol mx
      let x ← mapPy fun i : Fin m => D.body (c + n * m + i + 1) (s.2.xbar - s.2.y i) τ
      let xbar := (1 / (m : ℝ)) • ∑ i, x i
      pure (c + (n + 1) * m, xbar, x, fun i => s.2.y i + x i - xbar)) := by
  have hbody : ∀ i a (v : ConsState E m), ConsensusShared.body (fun _ : Unit => D.toMut) (fun _ => ()) τ tol mx i ((fun _ => a), v) =
      (mapPy fun i : Fin m => D.body (a + i + 1) (v.xbar - v.y i) τ).map fun x =>
        (((fun _ => a + m), (⟨(1 / (m : ℝ)) • ∑ i, x i, (1 / (m : ℝ)) • ∑ i, x i, x, fun i => v.y i + x i - (1 / (m : ℝ)) • ∑ i, x i, v.log ++ [(1 / (m : ℝ)) • ∑ i, x i]⟩ : ConsState E m)), false) := by
    intro i a v
    unfold ConsensusShared.body
    rw [shared_proxSeq D m (fun i => v.xbar - v.y i) (fun _ => τ) (fun _ => hτ)]
    cases (mapPy fun i : Fin m => D.body (a + i + 1) (v.xbar - v.y i) τ) with
    | error e => rfl
    | ok x =>
      simp only [Except.map, py_ok_bind, if_neg hm]
      rw [if_neg (not_lt.2 (hx _))]
      rfl
  have hb : ∀ i (s s' : (Unit → ℕ) × ConsState E m) b, ConsensusShared.body (fun _ : Unit => D.toMut) (fun _ => ()) τ tol mx i s = .ok (s', b) → b = false := by
    intro i s s' b h
    obtain ⟨a, v⟩ := s
    rw [show a = fun _ => a () from rfl, hbody] at h
    cases hq : (mapPy fun i : Fin m => D.body (a () + i + 1) (v.xbar - v.y i) τ) with
    | error e => rw [hq] at h; cases h
    | ok q => rw [hq] at h; cases h; rfl
  have hcount : ∀ n r, ConsensusShared (m := m) (fun _ : Unit => D.toMut) (fun _ => ()) (fun _ => c) x0 τ n tol mx = .ok r → r.1 = fun _ => c + n * m := by
    intro n
    induction n with
    | zero => intro r h; unfold ConsensusShared at h; cases h; simp
    | succ n ih =>
      intro r h
      obtain ⟨q, h1, h2⟩ := forRange_succ hb n 0 _ r h
      have hq := ih q h1
      obtain ⟨q1, v⟩ := q
      simp only at hq
      subst hq
      rw [hbody] at h2
      cases hq : (mapPy fun i : Fin m => D.body (c + n * m + i + 1) (v.xbar - v.y i) τ) with
      | error e => rw [hq] at h2; cases h2
      | ok x => rw [hq] at h2; cases h2; funext _; ring
  have hr := hcount n
  unfold ConsensusShared at hr ⊢
  rw [forRange_add hb 1 n 0, Nat.zero_add]
  cases hf : forRange (ConsensusShared.body (m := m) (fun _ : Unit => D.toMut) (fun _ => ()) τ tol mx) n 0 ((fun _ => c), ⟨x0, x0, fun _ => x0, fun _ => 0, []⟩) with
  | error e => rfl
  | ok r =>
    have h1 := hr r hf
    obtain ⟨a, v⟩ := r
    simp only at h1
    subst h1
    simp only [Except.bind, forRange, py_ok_bind, hbody]
    cases (mapPy fun i : Fin m => D.body (c + n * m + i + 1) (v.xbar - v.y i) τ) with
    | error e => rfl
    | ok x =>
      rw [show c + (n + 1) * m = c + n * m + m by ring]
      rfl

/-- C127: an object with a counter in all `m` places of the list given to `PPXA` is like `m` objects, of which the one in place `i` gets the parameters with index
`c + i + 1`, `c + m + i + 1`, `c + 2 m + i + 1`, …. -/
theorem C127_ppxa_schedule (D : CountedClass E) (c : ℕ) {m : ℕ} (w : Fin m → ℝ) {τ : ℝ} (hτ : ∀ i, 0 < τ / w i) (y0 : Fin m → E) (η : ℝ) (n : ℕ) (tol : ℝ) (mx : E → ℝ) :
    (PPXAShared (fun _ : Unit => D.toMut) (fun _ => ()) (fun _ => c) w y0 τ η n tol mx).map Prod.snd =
      (PPXAMut (fun i : Fin m => (D.every c m (i + 1)).toMut) (fun _ => 0) w y0 τ η n tol mx).map Prod.snd := by
  unfold PPXAShared PPXAMut
  by_cases hm : m = 0
  · rw [if_pos hm, if_pos hm]
    rfl
  rw [if_neg hm, if_neg hm]
  have hw : ∀ i, w i ≠ 0 := fun i h => by have := hτ i; rw [h] at this; simp at this
  rcases forRange_sim (b1 := PPXAShared.body (fun _ : Unit => D.toMut) (fun _ => ()) w τ η tol mx) (b2 := PPXAMut.body (fun i : Fin m => (D.every c m (i + 1)).toMut) w τ η tol mx)
      (R := fun (s : (Unit → ℕ) × PPXAState E m) (t : (Fin m → ℕ) × PPXAState E m) => ∃ k, s.1 = (fun _ => c + k * m) ∧ t.1 = (fun _ => k) ∧ s.2 = t.2) (fun i s t hst => by
        obtain ⟨a, v⟩ := s
        obtain ⟨b, v'⟩ := t
        obtain ⟨k, h1, h2, h3⟩ := hst
        simp only at h1 h2 h3
        subst h1 h2 h3
        have e1 : (fun i => if w i = 0 then (.error .nanResult : Py ℝ) else .ok (τ / w i)) = fun i => .ok (τ / w i) := by funext i; rw [if_neg (hw i)]
        have e2 : (fun i : Fin m => if w i = 0 then (.error .nanResult : Py (ℕ × E × E)) else (D.every c m (i + 1)).toMut.proxPy k (v.y i) (τ / w i)) =
            fun i : Fin m => (D.body (c + k * m + i + 1) (v.y i) (τ / w i)).map fun p => (k + 1, p, v.y i) := by
          funext i; rw [if_neg (hw i), every_proxPy _ _ _ _ _ _ (hτ i)]; rfl
        unfold PPXAShared.body PPXAMut.body
        simp only [e1, e2]
        rw [shared_proxSeq D m v.y (fun i => τ / w i) hτ, shared_mapPy]
        cases mapPy fun i : Fin m => D.body (c + k * m + i + 1) (v.y i) (τ / w i) with
        | error er => left; exact ⟨er, rfl, rfl⟩
        | ok r =>
          right
          simp only [Except.map, Bind.bind, Except.bind, Pure.pure, Except.pure]
          by_cases hc : mx (v.x + η • (∑ i, w i • r i - v.x) - v.xold) < tol
          · simp only [if_pos hc]; exact ⟨_, _, _, rfl, rfl, k + 1, by funext _; ring, rfl, rfl⟩
          · simp only [if_neg hc]; exact ⟨_, _, _, rfl, rfl, k + 1, by funext _; ring, rfl, rfl⟩) n 0
      ((fun _ => c), ⟨(1 / (m : ℝ)) • ∑ i, y0 i, (1 / (m : ℝ)) • ∑ i, y0 i, y0, []⟩) ((fun _ => 0), ⟨(1 / (m : ℝ)) • ∑ i, y0 i, (1 / (m : ℝ)) • ∑ i, y0 i, y0, []⟩) ⟨0, by simp, rfl, rfl⟩ with
    ⟨er, e1, e2⟩ | ⟨s, t, e1, e2, k, -, -, h3⟩
  · rw [e1, e2]; rfl
  · rw [e1, e2]; simp only [Except.map]; rw [h3]

/-- C127 does not hold for an object with a counter: `ADMM(f, f, …)` with `f = L1(sigma)`, `sigma` a function, and `ADMM(L1(sigma), L1(sigma), …)` differ after the first
iteration. -/
theorem C127_admm_refuted {ι : Type} [Fintype ι] [Nonempty ι] (σ : ℕ → ℝ) (h1 : 0 ≤ σ 1) (h2 : 0 ≤ σ 2) (hne : σ 1 ≠ σ 2) {τ : ℝ} (hτ : 0 < τ) (z0 : Vec ι)
    (hx : ∀ i, τ * σ 1 + τ * σ 1 < z0 i ∧ τ * σ 1 + τ * σ 2 < z0 i) :
    ∃ r r', ADMMShared (L1c σ).toMut 0 (some z0) (some z0) τ 1 false = .ok r ∧ ADMMMut (L1c σ).toMut (L1c σ).toMut 0 0 (some z0) (some z0) τ 1 false = .ok r' ∧
      r.2.x = r'.2.2.x ∧ r.2.z ≠ r'.2.2.z := by
  have hp : ∀ c x, (L1c σ).toMut.proxPy c x τ = .ok (c + 1, softthreshold x fun _ : ι => τ * σ (c + 1), x) := fun c x => by
    rw [counted_proxPy _ _ _ hτ]; rfl
  let x1 : Vec ι := softthreshold z0 fun _ => τ * σ 1
  let za : Vec ι := softthreshold x1 fun _ => τ * σ 2
  let zb : Vec ι := softthreshold x1 fun _ => τ * σ 1
  refine ⟨(2, ⟨x1, za, 0 + x1 - za, [(x1, za)]⟩), (1, 1, ⟨x1, zb, 0 + x1 - zb, [(x1, zb)]⟩), ?_, ?_, rfl, fun h => ?_⟩
  · simp [ADMMShared, x0z0Init, forRange, ADMMShared.body, hp, Bind.bind, Except.bind, Pure.pure, Except.pure, x1, za]
  · simp [ADMMMut, x0z0Init, forRange, ADMMMut.body, hp, Bind.bind, Except.bind, Pure.pure, Except.pure, x1, zb]
  obtain ⟨i⟩ := ‹Nonempty ι›
  have hst : ∀ (c : ℕ) (x : Vec ι), 0 ≤ σ c → τ * σ c < x i → (softthreshold x fun _ => τ * σ c) i = x i - τ * σ c := fun c x hc hlt => by
    have h0 : 0 ≤ τ * σ c := by positivity
    have h3 : 0 < x i := h0.trans_lt hlt
    show max (|x i| - τ * σ c) 0 * npsign (x i) = _
    rw [abs_of_pos h3, npsign, if_pos h3, max_eq_left (by linarith), mul_one]
  have hi := congrFun (congrArg (WithLp.ofLp) h) i
  have p1 : 0 ≤ τ * σ 1 := by positivity
  have p2 : 0 ≤ τ * σ 2 := by positivity
  have hz : (softthreshold z0 fun _ => τ * σ 1) i = z0 i - τ * σ 1 := hst 1 z0 h1 (by linarith [(hx i).1])
  change (softthreshold (softthreshold z0 fun _ => τ * σ 1) fun _ => τ * σ 2) i = (softthreshold (softthreshold z0 fun _ => τ * σ 1) fun _ => τ * σ 1) i at hi
  rw [hst 2 (softthreshold z0 fun _ => τ * σ 1) h2 (by rw [hz]; linarith [(hx i).2]), hst 1 (softthreshold z0 fun _ => τ * σ 1) h1 (by rw [hz]; linarith [(hx i).1])] at hi
  apply hne
  have : τ * σ 2 = τ * σ 1 := by linarith
  exact (mul_left_cancel₀ hτ.ne' this).symm

/-! ## Non-vacuity -/

/-- `C127_admm_partial` for an `L2` object with an exact solver, whatever attributes it already has from earlier calls. -/
example {H C : Type} [NormedAddCommGroup H] [InnerProductSpace ℝ H] [FiniteDimensional ℝ E] (ext : L2Ext E H C) (hext : L2ExtWithin ext 0) (a : L2Args E H) (hσ : 0 < a.σ) (st : L2State E C)
    (h0 : L2Reachable ext a st) (x0 z0 : Option E) (τ : ℝ) (n : ℕ) (gfirst : Bool) :
    (ADMMShared (L2.toMut ext a) st x0 z0 τ n gfirst).map Prod.snd = ADMM (L2.obj ext a st) (L2.obj ext a st) x0 z0 τ n gfirst :=
  (C127_admm_partial (C99_l2_state_independent ext hext a hσ st h0) st h0 x0 z0 τ n gfirst).1

/-- `C127_ppxa_partial` for a list of two objects without attributes, the first one given three times. -/
example (p q : ProxOp E) (w : Fin 4 → ℝ) (y0 : Fin 4 → E) (τ η : ℝ) (n : ℕ) (tol : ℝ) (mx : E → ℝ) :
    (PPXAShared (fun b : Bool => (if b then p else q).toMut) ![true, false, true, true] (fun _ => ()) w y0 τ η n tol mx).map Prod.snd =
      PPXA (fun i => if (![true, false, true, true] i : Bool) then p else q) (some w) y0 τ η n tol mx :=
  (C127_ppxa_partial (Inv := fun _ _ => True) (ps := fun b : Bool => if b then p else q) (fun _ => ⟨fun _ _ _ _ => ⟨rfl, trivial⟩, fun _ _ _ => ⟨rfl, trivial⟩, fun _ _ _ => rfl⟩) (fun _ _ _ _ => rfl) _ _ (fun _ => trivial) w
    y0 τ η n tol mx).1

/-- `C127_admm_refuted` with `sigma = lambda k: k`. -/
example : ∃ r r', ADMMShared (L1c (ι := Fin 3) fun k => k).toMut 0 (some (vmk fun _ => 10)) (some (vmk fun _ => 10)) 1 1 false = .ok r ∧
    ADMMMut (L1c (ι := Fin 3) fun k => k).toMut (L1c (ι := Fin 3) fun k => k).toMut 0 0 (some (vmk fun _ => 10)) (some (vmk fun _ => 10)) 1 1 false = .ok r' ∧
      r.2.x = r'.2.2.x ∧ r.2.z ≠ r'.2.2.z :=
  C127_admm_refuted _ (by norm_num) (by norm_num) (by norm_num) one_pos _ fun i => by
    show (1 : ℝ) * ((1 : ℕ) : ℝ) + 1 * ((1 : ℕ) : ℝ) < 10 ∧ (1 : ℝ) * ((1 : ℕ) : ℝ) + 1 * ((2 : ℕ) : ℝ) < 10
    norm_num

end Verif
