import Verif.Model.Interrupt
import Verif.Props.L2
import Verif.Props.Reruns

/-!
# C128: calls that are stopped midway

A call of `prox` that an exception stops should leave the object as if the call had not been made, or had been completed: later calls then give right answers.
-/

open scoped RealInnerProductSpace

namespace Verif

variable {E F C : Type} [NormedAddCommGroup E] [InnerProductSpace ℝ E] [NormedAddCommGroup F] [InnerProductSpace ℝ F]

/-! ## `L2` -/

/-- C128: a call that has done all its assignments is a completed call, so the list of assignments belongs to the `prox` of C17. -/
theorem C128_l2_complete (ext : L2Ext E F C) (a : L2Args E F) (s : L2State E C) (x : E) (τ : ℝ) (k : ℕ) (hk : 4 ≤ k) :
    stoppedAfter (L2.writes ext a s x τ) s k = (L2.prox ext a s x τ).1 := by
  have hlen : (L2.writes ext a s x τ).length ≤ k := by
    refine le_trans ?_ hk
    unfold L2.writes L2.bodyWrites
    cases a.data <;> simp only [L2.warmWrite] <;> split_ifs <;> simp
  unfold stoppedAfter
  rw [List.take_of_length_le hlen]
  obtain ⟨data, q, σ, α, qgrad, niter, warm, solver, ds⟩ := a
  by_cases hτ : τ ≤ 0
  · simp [L2.writes, L2.prox, hτ]
  cases data with
  | opB Op e b =>
    cases e <;> cases warm <;> simp only [L2.writes, L2.bodyWrites, L2.prox, L2.proxBody, L2.warmWrite, if_neg hτ, Bool.false_eq_true, if_false, if_true, ne_eq, ite_not, ite_self]
    all_goals try split_ifs
    all_goals simp_all
    all_goals (cases hcl : s.cl <;> simp_all)
  | opOnly Op e => simp [L2.writes, L2.bodyWrites, L2.prox, L2.proxBody, if_neg hτ]
  | bOnly b => simp [L2.writes, L2.bodyWrites, L2.prox, L2.proxBody, if_neg hτ]
  | nothing => simp [L2.writes, L2.bodyWrites, L2.prox, L2.proxBody, if_neg hτ]

/-- What a stopped call does to the cache: nothing, or the new `tau*sigma` is stored, with its factorization unless the call was stopped after exactly two assignments. -/
lemma stop_cache (ext : L2Ext E F C) (a : L2Args E F) (s : L2State E C) (x : E) (τ : ℝ) (k : ℕ) :
    ((stoppedAfter (L2.writes ext a s x τ) s k).tausigma = s.tausigma ∧ (stoppedAfter (L2.writes ext a s x τ) s k).cl = s.cl) ∨
      ∃ Op b, a.data = .opB Op true b ∧ a.densesolver = .factorize ∧ (stoppedAfter (L2.writes ext a s x τ) s k).tausigma = τ * a.σ ∧
        ((stoppedAfter (L2.writes ext a s x τ) s k).cl = some (ext.choFactor (Op.regNormal (τ * a.σ))) ∨
          k = 2 ∧ s.tausigma ≠ τ * a.σ ∧ (stoppedAfter (L2.writes ext a s x τ) s k).cl = s.cl) := by
  have hw : ∀ (w : Bool) (z : L2State E C → Option E) (st : L2State E C) (k : ℕ),
      (stoppedAfter (L2.warmWrite w z) st k).tausigma = st.tausigma ∧ (stoppedAfter (L2.warmWrite w z) st k).cl = st.cl := by
    intro w z st k
    unfold stoppedAfter L2.warmWrite
    cases w
    · simp
    · cases k with
      | zero => simp
      | succ k =>
        simp only [if_true, List.take_succ_cons, List.take_nil, List.foldl_cons, List.foldl_nil]
        cases z st <;> simp
  cases k with
  | zero => left; exact ⟨rfl, rfl⟩
  | succ k =>
    have h1 : stoppedAfter (L2.writes ext a s x τ) s (k + 1) =
        stoppedAfter (if τ ≤ 0 then [] else L2.bodyWrites ext a s (s.count + 1) x τ) { s with count := s.count + 1 } k := by
      simp [stoppedAfter, L2.writes]
    rw [h1]
    by_cases hτ : τ ≤ 0
    · left; simp [hτ, stoppedAfter]
    rw [if_neg hτ]
    obtain ⟨data, q, σ, α, qgrad, niter, warm, solver, ds⟩ := a
    cases data with
    | opOnly Op e => left; simp [L2.bodyWrites, stoppedAfter]
    | bOnly b => left; simp [L2.bodyWrites, stoppedAfter]
    | nothing => left; simp [L2.bodyWrites, stoppedAfter]
    | opB Op e b =>
      cases e with
      | false =>
        left
        simp only [L2.bodyWrites, Bool.false_eq_true, if_false]
        split_ifs <;> exact hw _ _ _ _
      | true =>
        by_cases hd : ds = .factorize
        · subst hd
          by_cases ht : s.tausigma = τ * σ
          · left
            simp only [L2.bodyWrites, if_true, ne_eq, not_true, if_false, ht, List.nil_append]
            exact ⟨(hw _ _ _ _).1, (hw _ _ _ _).2⟩
          · cases k with
            | zero => left; exact ⟨rfl, rfl⟩
            | succ k =>
              right
              refine ⟨Op, b, rfl, rfl, ?_⟩
              simp only [L2.bodyWrites, if_true, ne_eq, not_true, if_false, ht, not_false_eq_true, List.cons_append, List.nil_append]
              cases k with
              | zero => exact ⟨rfl, .inr ⟨rfl, trivial, rfl⟩⟩
              | succ k =>
                have h2 : ∀ (ws : List (L2State E C → L2State E C)) (w1 w2 : L2State E C → L2State E C) (st : L2State E C),
                    stoppedAfter (w1 :: w2 :: ws) st (k + 1 + 1) = stoppedAfter ws (w2 (w1 st)) k := fun ws w1 w2 st => by simp [stoppedAfter]
                rw [h2]
                exact ⟨(hw _ _ _ _).1, .inl (hw _ _ _ _).2⟩
        · left
          simp only [L2.bodyWrites, if_true, ne_eq, hd, not_false_eq_true]
          exact hw _ _ _ _

/-- The event is a call with step `τ`, stopped between storing `tau*sigma` and storing its factorization. -/
def L2CallEvent.Bad (a : L2Args E F) (τ : ℝ) : L2CallEvent E → Prop
  | .call _ _ => False
  | .stop _ τ' k => a.densesolver = .factorize ∧ τ' = τ ∧ k = 2

/-- The cache is right, or will be recomputed by a call with step `τ`. -/
lemma cache_events (ext : L2Ext E F C) (a : L2Args E F) (hσ : a.σ ≠ 0) (τ : ℝ) (es : List (L2CallEvent E)) (hes : ∀ e ∈ es, ¬ e.Bad a τ) (s : L2State E C)
    (hs : CacheOk ext a s ∨ a.densesolver = .factorize ∧ s.tausigma ≠ τ * a.σ) :
    CacheOk ext a (L2.afterEvents ext a s es) ∨ a.densesolver = .factorize ∧ (L2.afterEvents ext a s es).tausigma ≠ τ * a.σ := by
  induction es generalizing s with
  | nil => exact hs
  | cons e es ih =>
    refine ih (fun e' he' => hes e' (List.mem_cons_of_mem _ he')) _ ?_
    have hstop : ∀ x' τ' k, (k = 2 → a.densesolver = .factorize → τ' ≠ τ) →
        CacheOk ext a (stoppedAfter (L2.writes ext a s x' τ') s k) ∨ a.densesolver = .factorize ∧ (stoppedAfter (L2.writes ext a s x' τ') s k).tausigma ≠ τ * a.σ := by
      intro x' τ' k hk
      rcases stop_cache ext a s x' τ' k with ⟨h1, h2⟩ | ⟨Op, b, h1, h2, h3, h4 | ⟨h4, -, -⟩⟩
      · unfold CacheOk at hs ⊢
        rw [h1, h2]; exact hs
      · left
        unfold CacheOk
        rw [h1]
        right
        rw [h4, h3]
      · right
        refine ⟨h2, ?_⟩
        rw [h3]
        exact fun h => hk h4 h2 (mul_right_cancel₀ hσ h)
    cases e with
    | call x' τ' =>
      have := hstop x' τ' 4 (by norm_num)
      rwa [C128_l2_complete ext a s x' τ' 4 le_rfl] at this
    | stop x' τ' k =>
      exact hstop x' τ' k fun h1 h2 h3 => hes _ (List.mem_cons_self ..) ⟨h2, h3, h1⟩

/-- C128 for `L2`, partial: after any history of completed calls and calls stopped at any point, a call returns the proximal point up to the accuracy of the inner solver, unless
an earlier call with the same step was stopped between the assignments of `tausigma` and of `cl`.  Missing: `C128_l2_refuted`. -/
theorem C128_l2_partial [FiniteDimensional ℝ E] (ext : L2Ext E F C) (δ : ℝ) (hext : L2ExtWithin ext δ) (a : L2Args E F) (hσ : 0 < a.σ) (x0 : Option E) (s : L2State E C)
    (hs : L2.init a x0 = .ok s) (es : List (L2CallEvent E)) (x : E) (τ : ℝ) (hτ : 0 < τ) (hes : ∀ e ∈ es, ¬ e.Bad a τ) :
    ∃ z p, (L2.prox ext a (L2.afterEvents ext a s es) x τ).2.1 = .ok z ∧ IsUniqueProx (XFun.ofReal (l2Spec a)) τ x p ∧ ‖z - p‖ ≤ δ := by
  rcases cache_events ext a hσ.ne' τ es hes s (.inl (cacheOk_init ext a x0 s hs)) with h | ⟨h1, h2⟩
  · exact l2_prox_of_cache ext δ hext a hσ _ h x τ hτ
  · generalize L2.afterEvents ext a s es = st at h2
    have hne : (0 : ℝ) ≠ τ * a.σ := (mul_pos hτ hσ).ne
    have heq : (L2.prox ext a st x τ).2.1 = (L2.prox ext a { st with tausigma := 0, cl := none } x τ).2.1 := by
      obtain ⟨data, q, σ, α, qgrad, niter, warm, solver, ds⟩ := a
      simp only at h1 h2 hne
      subst h1
      cases data with
      | opB Op e b =>
        cases e
        · simp only [L2.prox, L2.proxBody, if_neg (not_le.2 hτ), Bool.false_eq_true, if_false]
          split_ifs <;> rfl
        · simp only [L2.prox, L2.proxBody, if_neg (not_le.2 hτ), if_true, ne_eq, not_true, if_false, h2, hne, not_false_eq_true]
      | opOnly Op e => simp only [L2.prox, L2.proxBody, if_neg (not_le.2 hτ)]
      | bOnly b => simp only [L2.prox, L2.proxBody, if_neg (not_le.2 hτ)]
      | nothing => simp only [L2.prox, L2.proxBody, if_neg (not_le.2 hτ)]
    rw [heq]
    refine l2_prox_of_cache ext δ hext a hσ _ ?_ x τ hτ
    unfold CacheOk
    split
    · left; exact ⟨rfl, rfl⟩
    · trivial

/-- C128 for runs of a solver, partial: after any history without such a stop, `ADMM` with the object computes what it computes with the exact operator (exact inner solvers). -/
theorem C128_l2_rerun_partial [FiniteDimensional ℝ E] (ext : L2Ext E F C) (hext : L2ExtWithin ext 0) (a : L2Args E F) (hσ : 0 < a.σ) (x0 : Option E) (s : L2State E C)
    (hs : L2.init a x0 = .ok s) (es : List (L2CallEvent E)) (hes : ∀ τ, ∀ e ∈ es, ¬ e.Bad a τ) {SG : Type} {g : MutOp SG E} {Ig : SG → Prop} {pg : ProxOp E} (hg : Computes g Ig pg) (sg : SG)
    (hsg : Ig sg) (y0 z0 : Option E) (τ : ℝ) (n : ℕ) (gfirst : Bool) :
    (ADMMMut (L2.toMut ext a) g (L2.afterEvents ext a s es) sg y0 z0 τ n gfirst).map (fun r => r.2.2) = ADMM (L2.obj ext a s) pg y0 z0 τ n gfirst := by
  refine (C98_admm_inplace (If := CacheOk ext a) (pf := L2.obj ext a s) ⟨fun st hst x τ => ⟨?_, cacheOk_prox ext a st hst x τ⟩, fun st hst x => ⟨rfl, hst⟩, fun _ _ _ => rfl⟩ hg _ ?_ sg hsg y0
    z0 τ n gfirst).1
  · show (L2.prox ext a st x τ).2.1 = (L2.prox ext a s x τ).2.1
    by_cases hτ : 0 < τ
    · obtain ⟨z, p, h1, h2, h3⟩ := l2_prox_of_cache ext 0 hext a hσ st hst x τ hτ
      obtain ⟨z', p', h1', h2', h3'⟩ := l2_prox_of_cache ext 0 hext a hσ s (cacheOk_init ext a x0 s hs) x τ hτ
      have e1 : z = p := sub_eq_zero.1 (norm_le_zero_iff.1 h3)
      have e2 : z' = p' := sub_eq_zero.1 (norm_le_zero_iff.1 h3')
      rw [h1, h1', e1, e2, h2.2 p' h2'.1]
    · simp [L2.prox, if_pos (not_lt.1 hτ)]
  · have key : ∀ (es : List (L2CallEvent E)), (∀ τ, ∀ e ∈ es, ¬ e.Bad a τ) → ∀ st, CacheOk ext a st → CacheOk ext a (L2.afterEvents ext a st es) := by
      intro es
      induction es with
      | nil => intro _ st h; exact h
      | cons e es ih =>
        intro hes st h
        refine ih (fun τ e' he' => hes τ e' (List.mem_cons_of_mem _ he')) _ ?_
        cases e with
        | call x' τ' => exact cacheOk_prox ext a st h x' τ'
        | stop x' τ' k =>
          show CacheOk ext a (stoppedAfter (L2.writes ext a st x' τ') st k)
          rcases stop_cache ext a st x' τ' k with ⟨h1, h2⟩ | ⟨Op, b, h1, h2, h3, h4 | ⟨h4, -, -⟩⟩
          · unfold CacheOk at h ⊢
            rw [h1, h2]; exact h
          · unfold CacheOk
            rw [h1]
            right
            rw [h4, h3]
          · exact absurd ⟨h2, rfl, h4⟩ (hes τ' _ (List.mem_cons_self ..))
    exact key es hes s (cacheOk_init ext a x0 s hs)

lemma l2_answers_congr (ext : L2Ext E F C) (a : L2Args E F) (hf : a.densesolver ≠ .factorize) {m : ℕ} (hn : a.niter = .const m) (calls : List (E × ℝ)) :
    ∀ s s' : L2State E C, s.x0 = s'.x0 → L2.answers ext a s calls = L2.answers ext a s' calls := by
  induction calls with
  | nil => intro s s' _; rfl
  | cons c cs ih =>
    intro s s' h
    have hp : (L2.prox ext a s c.1 c.2).2.1 = (L2.prox ext a s' c.1 c.2).2.1 ∧ (L2.prox ext a s c.1 c.2).1.x0 = (L2.prox ext a s' c.1 c.2).1.x0 := by
      obtain ⟨data, q, σ, α, qgrad, niter, warm, solver, ds⟩ := a
      simp only at hf hn
      subst hn
      unfold L2.prox
      by_cases hτ : c.2 ≤ 0
      · simp only [if_pos hτ]; exact ⟨trivial, h⟩
      · simp only [if_neg hτ]
        cases data with
        | opB Op e b =>
          cases e
          · simp only [L2.proxBody, NIter.get, Bool.false_eq_true, if_false, h]
            split_ifs <;> exact ⟨by first | rfl | trivial, by first | rfl | exact h⟩
          · simp only [L2.proxBody, if_true, ne_eq, hf, not_false_eq_true]
            cases warm <;> exact ⟨by first | rfl | trivial, by first | rfl | exact h⟩
        | opOnly Op e => exact ⟨rfl, h⟩
        | bOnly b => exact ⟨rfl, h⟩
        | nothing => exact ⟨rfl, h⟩
    simp only [L2.answers, hp.1]
    rw [ih _ _ hp.2]

/-- C128 for `L2` without a stored factorization and with a fixed number of inner iterations, partial: whatever the inner solver, a call stopped at any point is for all later
calls as if it had not been made or had been completed.  Missing: `densesolver="factorize"` (`C128_l2_refuted`). -/
theorem C128_l2_atomic_partial (ext : L2Ext E F C) (a : L2Args E F) (hf : a.densesolver ≠ .factorize) {m : ℕ} (hn : a.niter = .const m) (s : L2State E C) (x : E) (τ : ℝ) (k : ℕ)
    (calls : List (E × ℝ)) :
    L2.answers ext a (stoppedAfter (L2.writes ext a s x τ) s k) calls = L2.answers ext a s calls ∨
      L2.answers ext a (stoppedAfter (L2.writes ext a s x τ) s k) calls = L2.answers ext a (L2.prox ext a s x τ).1 calls := by
  have hlen : (L2.writes ext a s x τ).length ≤ 2 := by
    have hw : ∀ (w : Bool) (z : L2State E C → Option E), (L2.warmWrite w z).length ≤ 1 := by
      intro w z; cases w <;> simp [L2.warmWrite]
    unfold L2.writes
    simp only [List.length_cons]
    refine Nat.succ_le_succ ?_
    split_ifs
    · simp
    · unfold L2.bodyWrites
      cases a.data with
      | opB Op e b =>
        simp only [ne_eq, hf, not_false_eq_true, if_true]
        split_ifs <;> exact hw _ _
      | opOnly Op e => simp
      | bOnly b => simp
      | nothing => simp
  rcases k with _ | _ | k
  · left; rfl
  · left
    refine l2_answers_congr ext a hf hn calls _ _ ?_
    simp [stoppedAfter, L2.writes]
  · right
    have h4 := C128_l2_complete ext a s x τ 4 le_rfl
    have he : stoppedAfter (L2.writes ext a s x τ) s (k + 1 + 1) = stoppedAfter (L2.writes ext a s x τ) s 4 := by
      unfold stoppedAfter
      rw [List.take_of_length_le (by omega), List.take_of_length_le (by omega)]
    rw [he, h4]

/-- C128 does not hold for `L2` with `densesolver="factorize"`: after a call with step `τ1`, a call with another step `τ` that is stopped between the two assignments makes this
and all following calls with step `τ` solve the system of `τ1`. -/
theorem C128_l2_stale (ext : L2Ext E F C) (a : L2Args E F) (Op : LinOp E F) (b : F) (hd : a.data = .opB Op true b) (hf : a.densesolver = .factorize) (hσ : a.σ ≠ 0) (s : L2State E C)
    (hs : CacheOk ext a s) (x1 x2 : E) {τ1 τ : ℝ} (h1 : 0 < τ1) (hτ : 0 < τ) (hne : τ1 ≠ τ) (later : List (E × ℝ)) (hl : ∀ c ∈ later, c.2 = τ) (x : E) :
    (L2.prox ext a (L2.after ext a (L2.afterEvents ext a s [.call x1 τ1, .stop x2 τ 2]) later) x τ).2.1 =
      .ok (ext.choSolve (ext.choFactor (Op.regNormal (τ1 * a.σ))) (L2.subQ a (x + τ • (a.σ • Op.rmatvec b)) τ)) := by
  obtain ⟨data, q, σ, α, qgrad, niter, warm, solver, ds⟩ := a
  simp only at hd hf hσ
  subst hd hf
  have hneq : τ1 * σ ≠ τ * σ := fun h => hne (mul_right_cancel₀ hσ h)
  have key : ∀ (later : List (E × ℝ)) (_ : ∀ c ∈ later, c.2 = τ) (st : L2State E C), st.tausigma = τ * σ → st.cl = some (ext.choFactor (Op.regNormal (τ1 * σ))) →
      (L2.after ext ⟨.opB Op true b, q, σ, α, qgrad, niter, warm, solver, .factorize⟩ st later).tausigma = τ * σ ∧
        (L2.after ext ⟨.opB Op true b, q, σ, α, qgrad, niter, warm, solver, .factorize⟩ st later).cl = some (ext.choFactor (Op.regNormal (τ1 * σ))) := by
    intro later
    induction later with
    | nil => intro _ st h2 h3; exact ⟨h2, h3⟩
    | cons c cs ih =>
      intro hc st h2 h3
      refine ih (fun c' hc' => hc c' (List.mem_cons_of_mem _ hc')) _ ?_ ?_
      · beta_reduce; rw [hc c (List.mem_cons_self ..)]
        simp only [L2.prox, if_neg (not_le.2 hτ), L2.proxBody, if_true, ne_eq, not_true, if_false, h2, h3]
        cases warm <;> simp [h2]
      · beta_reduce; rw [hc c (List.mem_cons_self ..)]
        simp only [L2.prox, if_neg (not_le.2 hτ), L2.proxBody, if_true, ne_eq, not_true, if_false, h2, h3]
        cases warm <;> simp [h3]
  have hcall : ∀ st : L2State E C, CacheOk ext ⟨.opB Op true b, q, σ, α, qgrad, niter, warm, solver, .factorize⟩ st →
      (L2.prox ext ⟨.opB Op true b, q, σ, α, qgrad, niter, warm, solver, .factorize⟩ st x1 τ1).1.tausigma = τ1 * σ ∧
        (L2.prox ext ⟨.opB Op true b, q, σ, α, qgrad, niter, warm, solver, .factorize⟩ st x1 τ1).1.cl = some (ext.choFactor (Op.regNormal (τ1 * σ))) := by
    intro st hst
    simp only [CacheOk] at hst
    simp only [L2.prox, if_neg (not_le.2 h1), L2.proxBody, if_true, ne_eq, not_true, if_false]
    by_cases ht : st.tausigma = τ1 * σ
    · rcases hst with ⟨-, h0⟩ | h0
      · exact absurd (h0.symm.trans ht) (mul_ne_zero h1.ne' hσ).symm
      · simp only [ht, not_true, if_false, h0]
        cases warm <;> simp [ht, h0]
    · simp only [ht, not_false_eq_true, if_true]
      cases warm <;> simp
  obtain ⟨c1, c2⟩ := hcall s hs
  set s1 := (L2.prox ext ⟨.opB Op true b, q, σ, α, qgrad, niter, warm, solver, .factorize⟩ s x1 τ1).1 with hs1
  have hstop : stoppedAfter (L2.writes ext ⟨.opB Op true b, q, σ, α, qgrad, niter, warm, solver, .factorize⟩ s1 x2 τ) s1 2 = { s1 with count := s1.count + 1, tausigma := τ * σ } := by
    have hne1 : s1.tausigma ≠ τ * σ := by rw [c1]; exact hneq
    simp [stoppedAfter, L2.writes, L2.bodyWrites, if_neg (not_le.2 hτ), hne1]
  have hev : L2.afterEvents ext ⟨.opB Op true b, q, σ, α, qgrad, niter, warm, solver, .factorize⟩ s [.call x1 τ1, .stop x2 τ 2] = { s1 with count := s1.count + 1, tausigma := τ * σ } := hstop
  rw [hev]
  obtain ⟨k1, k2⟩ := key later hl { s1 with count := s1.count + 1, tausigma := τ * σ } rfl c2
  simp only [L2.prox, if_neg (not_le.2 hτ), L2.proxBody, if_true, ne_eq, not_true, if_false, k1, k2]

/-- C128: the same on an object that has not been used before: every following call with this step raises `AttributeError`. -/
theorem C128_l2_first_refuted (ext : L2Ext E F C) (a : L2Args E F) (Op : LinOp E F) (b : F) (hd : a.data = .opB Op true b) (hf : a.densesolver = .factorize) (hσ : 0 < a.σ) (x0 : Option E)
    (s : L2State E C) (hs : L2.init a x0 = .ok s) (x2 : E) {τ : ℝ} (hτ : 0 < τ) (later : List (E × ℝ)) (hl : ∀ c ∈ later, c.2 = τ) (x : E) :
    (L2.prox ext a (L2.after ext a (L2.afterEvents ext a s [.stop x2 τ 2]) later) x τ).2.1 = .error .attributeError := by
  unfold L2.init at hs
  split_ifs at hs
  cases hs
  obtain ⟨data, q, σ, α, qgrad, niter, warm, solver, ds⟩ := a
  simp only at hd hf hσ
  subst hd hf
  have key : ∀ (later : List (E × ℝ)) (_ : ∀ c ∈ later, c.2 = τ) (st : L2State E C), st.tausigma = τ * σ → st.cl = none →
      (L2.after ext ⟨.opB Op true b, q, σ, α, qgrad, niter, warm, solver, .factorize⟩ st later).tausigma = τ * σ ∧
        (L2.after ext ⟨.opB Op true b, q, σ, α, qgrad, niter, warm, solver, .factorize⟩ st later).cl = none := by
    intro later
    induction later with
    | nil => intro _ st h2 h3; exact ⟨h2, h3⟩
    | cons c cs ih =>
      intro hc st h2 h3
      refine ih (fun c' hc' => hc c' (List.mem_cons_of_mem _ hc')) _ ?_ ?_ <;> beta_reduce <;> rw [hc c (List.mem_cons_self ..)] <;>
        simp only [L2.prox, if_neg (not_le.2 hτ), L2.proxBody, if_true, ne_eq, not_true, if_false, h2, h3]
  have hne : (0 : ℝ) ≠ τ * σ := (mul_pos hτ hσ).ne
  have hev : L2.afterEvents ext ⟨.opB Op true b, q, σ, α, qgrad, niter, warm, solver, .factorize⟩ ⟨0, x0, 0, none⟩ [.stop x2 τ 2] = ⟨1, x0, τ * σ, none⟩ := by
    simp [L2.afterEvents, L2.event, stoppedAfter, L2.writes, L2.bodyWrites, if_neg (not_le.2 hτ), hne]
  rw [hev]
  obtain ⟨k1, k2⟩ := key later hl ⟨1, x0, τ * σ, none⟩ rfl rfl
  simp only [L2.prox, if_neg (not_le.2 hτ), L2.proxBody, if_true, ne_eq, not_true, if_false, k1, k2]

/-- `Op = I`, `b = 0`, `sigma = 1` on one unknown with `densesolver="factorize"`. -/
noncomputable def l2Scalar : L2Args ℝ ℝ := ⟨.opB ⟨LinearMap.id, LinearMap.id, fun _ _ => rfl⟩ true 0, none, 1, 1, true, .const 10, false, .legacy, .factorize⟩

/-- C128 does not hold for `L2`, with exact inner solvers: a completed call with step 1, a call with step 3 stopped between the two assignments, and then the call with step 3 returns
2 for the argument 4, where the proximal point is 1. -/
theorem C128_l2_refuted (ext : L2Ext ℝ ℝ C) (hext : L2ExtWithin ext 0) (x0 : Option ℝ) (s : L2State ℝ C) (hs : L2.init l2Scalar x0 = .ok s) (x1 x2 : ℝ) :
    (L2.prox ext l2Scalar (L2.afterEvents ext l2Scalar s [.call x1 1, .stop x2 3 2]) 4 3).2.1 = .ok 2 ∧ ¬ IsProx (XFun.ofReal (l2Spec l2Scalar)) 3 4 2 := by
  constructor
  · have h := C128_l2_stale ext l2Scalar _ _ rfl rfl (by norm_num [l2Scalar]) s (cacheOk_init ext l2Scalar x0 s hs) x1 x2 (τ1 := 1) (τ := 3) one_pos (by norm_num) (by norm_num) [] (by simp) 4
    rw [show L2.after ext l2Scalar (L2.afterEvents ext l2Scalar s [.call x1 1, .stop x2 3 2]) [] = L2.afterEvents ext l2Scalar s [.call x1 1, .stop x2 3 2] from rfl] at h
    rw [h]
    congr 1
    set M : ℝ →ₗ[ℝ] ℝ := LinOp.regNormal (⟨LinearMap.id, LinearMap.id, fun _ _ => rfl⟩ : LinOp ℝ ℝ) (1 * l2Scalar.σ) with hM
    have e := hext.cho M (L2.subQ l2Scalar (4 + (3 : ℝ) • (l2Scalar.σ • (0 : ℝ))) 3) (wellPosed_regNormal _ (by norm_num [l2Scalar]))
    have e' := sub_eq_zero.1 (norm_le_zero_iff.1 e)
    have hy : L2.subQ l2Scalar ((4 : ℝ) + (3 : ℝ) • (l2Scalar.σ • (0 : ℝ))) 3 = 4 := by simp [L2.subQ, l2Scalar]
    have hMz : ∀ z, M z = 2 * z := fun z => by simp [hM, LinOp.regNormal, l2Scalar]; ring
    rw [hMz] at e'
    show ext.choSolve (ext.choFactor M) (L2.subQ l2Scalar ((4 : ℝ) + (3 : ℝ) • (l2Scalar.σ • (0 : ℝ))) 3) = 2
    rw [hy] at e' ⊢
    linarith
  · rintro ⟨-, h⟩
    have h1 := h 1 trivial
    norm_num [proxObj, XFun.ofReal, l2Spec, l2Scalar] at h1

/-! ## `Nonlinear` and the classes with a counter -/

lemma nl_answers_congr (C : NLClass E) (calls : List (E × ℝ)) : ∀ s s' : NLState E, s.x0 = s'.x0 → C.answers s calls = C.answers s' calls := by
  induction calls with
  | nil => intro s s' _; rfl
  | cons c cs ih =>
    intro s s' h
    have hp : (C.prox s c.1 c.2).2 = (C.prox s' c.1 c.2).2 ∧ (C.prox s c.1 c.2).1.x0 = (C.prox s' c.1 c.2).1.x0 := by
      unfold NLClass.prox
      by_cases hτ : c.2 ≤ 0
      · simp only [if_pos hτ]; exact ⟨trivial, h⟩
      · simp only [if_neg hτ, h]
        cases C.optimize { x0 := s'.x0, y := some c.1, tau := some c.2 } <;> cases C.warm <;> simp
    simp only [NLClass.answers, hp.1]
    rw [ih _ _ hp.2]

/-- C128 for `Nonlinear`: a call stopped at any point is for all later calls as if it had not been made or had been completed. -/
theorem C128_nonlinear (C : NLClass E) (s : NLState E) (x : E) (τ : ℝ) (k : ℕ) (calls : List (E × ℝ)) :
    C.answers (stoppedAfter (C.writes s x τ) s k) calls = C.answers s calls ∨ C.answers (stoppedAfter (C.writes s x τ) s k) calls = C.answers (C.prox s x τ).1 calls := by
  by_cases hτ : τ ≤ 0
  · left; simp [NLClass.writes, hτ, stoppedAfter]
  rcases k with _ | _ | _ | k
  · left; rfl
  · left
    refine nl_answers_congr C calls _ _ ?_
    simp [stoppedAfter, NLClass.writes, hτ]
  · left
    refine nl_answers_congr C calls _ _ ?_
    simp [stoppedAfter, NLClass.writes, hτ]
  · right
    refine nl_answers_congr C calls _ _ ?_
    unfold NLClass.writes NLClass.prox stoppedAfter
    simp only [if_neg hτ]
    cases C.optimize { s with y := some x, tau := some τ } with
    | error e => simp
    | ok r => cases C.warm <;> simp

/-- C128 for the classes with a counter: a call stopped at any point is as if it had not been made or had been completed. -/
theorem C128_counted (D : CountedClass E) (c : ℕ) (x : E) (τ : ℝ) (k : ℕ) (calls : List (OpCall E)) :
    D.history (stoppedAfter D.writes c k) calls = D.history c calls ∨ D.history (stoppedAfter D.writes c k) calls = D.history (D.prox c x τ).1 calls := by
  cases k with
  | zero => left; rfl
  | succ k => right; simp [stoppedAfter, CountedClass.writes, CountedClass.prox]

/-! ## `LowRankFactorizedMatrix` -/

section LowRank
variable {ι κ μ : Type} [Fintype ι] [Fintype κ] [Fintype μ] {D : Type} [NormedAddCommGroup D] [InnerProductSpace ℝ D]

/-- C128 for `LowRankFactorizedMatrix.__call__`, partial: stopped before its first or after its last assignment it leaves the object as it was.  Missing: `C128_lowrank_refuted`. -/
theorem C128_lowrank_partial (H : LowRank ι κ μ D) (s : LowRankState ι κ μ) (x : Vec (ι × κ)) (y : Vec (κ × μ)) (k : ℕ) (hk : k ≠ 1) :
    stoppedAfter (LowRank.callWrites s x) s k = s ∧ (H.call s x y).2 = s := by
  rcases k with _ | _ | k
  · exact ⟨rfl, rfl⟩
  · exact absurd rfl hk
  · exact ⟨by simp [stoppedAfter, LowRank.callWrites, LowRank.updatex], rfl⟩

/-- C128 does not hold for `LowRankFactorizedMatrix.__call__`: evaluating it with a second argument of the wrong size raises `ValueError`, and afterwards `grady` and `matvec` on the
second block use the first argument of the failed call in place of the stored block. -/
theorem C128_lowrank_refuted (H : LowRank ι κ μ D) (s : LowRankState ι κ μ) (x : Vec (ι × κ)) (len : ℕ) (hlen : len ≠ Fintype.card κ * Fintype.card μ) (y : Vec (κ × μ)) :
    (H.callSized s x len y).1 = .error .valueError ∧ ∀ v, H.grady (H.callSized s x len y).2 v = H.grady ⟨x, s.y⟩ v ∧ H.matvecy (H.callSized s x len y).2 v = H.matvecy ⟨x, s.y⟩ v := by
  simp [LowRank.callSized, hlen, stoppedAfter, LowRank.callWrites, LowRank.updatex]

/-- Non-vacuity of `C128_lowrank_refuted`: with all dimensions one, the stored `X = 1` and the argument `2`, the gradient changes from `y - d` to `4 y - 2 d`. -/
theorem C128_lowrank_value_refuted : ∃ (H : LowRank Unit Unit Unit (Vec (Unit × Unit))) (s : LowRankState Unit Unit Unit) (x v : Vec (Unit × Unit)),
    (H.callSized s x 2 v).1 = .error .valueError ∧ H.grady (H.callSized s x 2 v).2 v ≠ H.grady s v := by
  refine ⟨⟨0, ⟨LinearMap.id, LinearMap.id, fun _ _ => rfl⟩, false⟩, ⟨vmk fun _ => 1, vmk fun _ => 1⟩, vmk fun _ => 2, vmk fun _ => 1, ?_, fun h => ?_⟩
  · simp [LowRank.callSized]
  · have h0 := congrFun (congrArg WithLp.ofLp h) ((), ())
    norm_num [LowRank.callSized, stoppedAfter, LowRank.callWrites, LowRank.updatex, LowRank.grady, LowRank.matvecy, matMul, matT, vmk] at h0

end LowRank

/-! ## Non-vacuity -/

/-- `C128_l2_partial` for an exact solver and a history with calls stopped at several points. -/
example : ∃ (ext : L2Ext ℝ ℝ (ℝ →ₗ[ℝ] ℝ)) (s : L2State ℝ (ℝ →ₗ[ℝ] ℝ)), L2.init l2Scalar none = .ok s ∧
    ∃ z p, (L2.prox ext l2Scalar (L2.afterEvents ext l2Scalar s [.call 1 1, .stop 2 3 1, .stop 2 5 2, .stop 7 1 3]) 4 3).2.1 = .ok z ∧
      IsUniqueProx (XFun.ofReal (l2Spec l2Scalar)) 3 4 p ∧ ‖z - p‖ ≤ 0 := by
  obtain ⟨ext, hext⟩ := exists_exactExt (E := ℝ) (F := ℝ)
  refine ⟨ext, ⟨0, none, 0, none⟩, by simp [L2.init, l2Scalar], C128_l2_partial ext 0 hext l2Scalar (by norm_num [l2Scalar]) none _ (by simp [L2.init, l2Scalar]) _ 4 3 (by norm_num) ?_⟩
  intro e he
  simp only [List.mem_cons, List.not_mem_nil, or_false] at he
  rcases he with rfl | rfl | rfl | rfl <;> simp [L2CallEvent.Bad]

/-- `C128_l2_refuted` for an exact solver. -/
example : ∃ (ext : L2Ext ℝ ℝ (ℝ →ₗ[ℝ] ℝ)) (s : L2State ℝ (ℝ →ₗ[ℝ] ℝ)), L2.init l2Scalar none = .ok s ∧
    (L2.prox ext l2Scalar (L2.afterEvents ext l2Scalar s [.call 0 1, .stop 4 3 2]) 4 3).2.1 = .ok 2 := by
  obtain ⟨ext, hext⟩ := exists_exactExt (E := ℝ) (F := ℝ)
  exact ⟨ext, ⟨0, none, 0, none⟩, by simp [L2.init, l2Scalar], (C128_l2_refuted ext hext none _ (by simp [L2.init, l2Scalar]) 0 4).1⟩

end Verif
