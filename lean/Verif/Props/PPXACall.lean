import Verif.Model.PPXACall
import Verif.Props.Returns
import Verif.Props.BilinearPG
import Verif.Props.InPlace

/-! # C124: the shapes of the arguments of `PPXA` -/

set_option linter.unusedSectionVars false

namespace Verif

variable {E : Type} [NormedAddCommGroup E] [InnerProductSpace ℝ E]

lemma proxRows_ofFn (τ : ℝ) : ∀ {m : ℕ} (fs : Fin m → ProxOp E) (y : Fin m → E) (w : Fin m → ℝ),
    PPXA.proxRows τ (List.ofFn fs) (List.ofFn y) (List.ofFn w) = (mapPy fun i => if w i = 0 then .error .nanResult else (fs i).prox (y i) (τ / w i)).map List.ofFn := by
  intro m
  induction m with
  | zero => intro fs y w; simp [PPXA.proxRows, mapPy, Except.map]
  | succ m ih =>
    intro fs y w
    simp only [List.ofFn_succ, PPXA.proxRows, mapPy, ih]
    have hr : (if w 0 = 0 then Except.error PyErr.nanResult else (fs 0).prox (y 0) (τ / w 0)) = PPXA.proxRow τ (fs 0) (y 0) (w 0) := rfl
    rw [hr]
    cases PPXA.proxRow τ (fs 0) (y 0) (w 0) with
    | error e => rfl
    | ok p =>
      simp only [Bind.bind, Except.bind]
      cases mapPy (fun i : Fin m => if w i.succ = 0 then Except.error PyErr.nanResult else (fs i.succ).prox (y i.succ) (τ / w i.succ)) with
      | error e => rfl
      | ok t => simp [Except.map, Pure.pure, Except.pure, List.ofFn_succ]

lemma proxRows_length {τ : ℝ} : ∀ {fs : List (ProxOp E)} {ys : List E} {ws : List ℝ} {ps : List E}, PPXA.proxRows τ fs ys ws = .ok ps →
    ps.length = fs.length ∧ fs.length ≤ ys.length ∧ fs.length ≤ ws.length
  | [], ys, ws, ps, h => by simp [PPXA.proxRows] at h; subst h; simp
  | f :: fs, [], ws, ps, h => by simp [PPXA.proxRows] at h
  | f :: fs, y :: ys, [], ps, h => by simp [PPXA.proxRows] at h
  | f :: fs, y :: ys, w :: ws, ps, h => by
    simp only [PPXA.proxRows, Bind.bind, Except.bind] at h
    cases hp : PPXA.proxRow τ f y w with
    | error e => simp [hp] at h
    | ok p =>
      simp only [hp] at h
      cases hq : PPXA.proxRows τ fs ys ws with
      | error e => simp [hq] at h
      | ok qs =>
        simp only [hq, Pure.pure, Except.pure, Except.ok.injEq] at h
        subst h
        have := proxRows_length hq
        simp only [List.length_cons]
        omega

lemma zipWith_ofFn' {α β γ : Type} (h : α → β → γ) : ∀ {m : ℕ} (a : Fin m → α) (b : Fin m → β), List.zipWith h (List.ofFn a) (List.ofFn b) = List.ofFn fun i => h (a i) (b i) := by
  intro m
  induction m with
  | zero => intro a b; simp
  | succ m ih => intro a b; simp [List.ofFn_succ, ih]

lemma weightedSum_ofFn {m : ℕ} (hm : 0 < m) (w : Fin m → ℝ) (p : Fin m → E) : PPXA.weightedSum (List.ofFn w) (List.ofFn p) = .ok (∑ i, w i • p i) := by
  match m, hm with
  | 1, _ => simp [PPXA.weightedSum]
  | m + 2, _ =>
    have e : List.ofFn p = p 0 :: p 1 :: List.ofFn (fun i : Fin m => p i.succ.succ) := by simp [List.ofFn_succ]
    have : PPXA.weightedSum (List.ofFn w) (List.ofFn p) = .ok (List.zipWith (fun w p => w • p) (List.ofFn w) (List.ofFn p)).sum := by
      rw [e]; simp only [PPXA.weightedSum]; rw [← e, if_pos (by simp)]
    rw [this, zipWith_ofFn', List.sum_ofFn]

lemma updateRows_ofFn {m : ℕ} (hm : 0 < m) (η : ℝ) (x pn : E) (y p : Fin m → E) :
    PPXA.updateRows η x pn (List.ofFn y) (List.ofFn p) = .ok (List.ofFn fun i => y i + η • ((2 : ℝ) • pn - x - p i)) := by
  match m, hm with
  | 1, _ => simp [PPXA.updateRows]
  | m + 2, _ =>
    have e : List.ofFn p = p 0 :: p 1 :: List.ofFn (fun i : Fin m => p i.succ.succ) := by simp [List.ofFn_succ]
    have : PPXA.updateRows η x pn (List.ofFn y) (List.ofFn p) = .ok (List.zipWith (fun y p => y + η • ((2 : ℝ) • pn - x - p)) (List.ofFn y) (List.ofFn p)) := by
      rw [e]; simp only [PPXA.updateRows]; rw [← e, if_pos (by simp)]
    rw [this, zipWith_ofFn']

/-- The result seen through the typed model. -/
def PPXAState.toLists {m : ℕ} (s : PPXAState E m) : PPXAListState E := ⟨s.x, s.xold, List.ofFn s.y, s.log⟩

/-- C124: with one weight (or none given) and one starting point per function, the call is `PPXA` of the other properties (C48, C112, ...); a single vector stands for equal starting points. -/
theorem C124_wellformed {m : ℕ} (hm : 0 < m) (fs : Fin m → ProxOp E) (weights : Option (Fin m → ℝ)) (y0 : Fin m → E) (τ η : ℝ) (n : ℕ) (tol : ℝ) (mx : E → ℝ) :
    PPXACall (List.ofFn fs) (weights.map List.ofFn) (.rows (List.ofFn y0)) τ η n (some tol) mx = (PPXA fs weights y0 τ η n tol mx).map PPXAState.toLists ∧
    ∀ x0, PPXACall (List.ofFn fs) (weights.map List.ofFn) (.vec x0) τ η n (some tol) mx = (PPXA fs weights (fun _ => x0) τ η n tol mx).map PPXAState.toLists := by
  have key : ∀ (w : Fin m → ℝ) s, (forRange (PPXA.body fs w τ η tol mx) n 0 s).map PPXAState.toLists = forRange (PPXA.listBody (List.ofFn fs) (List.ofFn w) τ η (some tol) mx) n 0 s.toLists := by
    intro w s
    refine (forRange_map (J := fun _ => True) (π := PPXAState.toLists) (fun i s _ => ?_) n 0 s trivial).1
    simp only [PPXA.body, PPXA.listBody, PPXAState.toLists, proxRows_ofFn]
    cases mapPy (fun i => if w i = 0 then Except.error PyErr.nanResult else (fs i).prox (s.y i) (τ / w i)) with
    | error e => left; exact ⟨e, rfl, rfl⟩
    | ok p =>
      right
      simp only [Except.map, Bind.bind, Except.bind, weightedSum_ofFn hm, updateRows_ofFn hm]
      by_cases h : mx (s.x + η • (∑ i, w i • p i - s.x) - s.xold) < tol
      · simp only [h, if_true]
        exact ⟨_, true, rfl, rfl, trivial⟩
      · simp only [h, if_false]
        exact ⟨_, false, rfl, rfl, trivial⟩
  have main : ∀ y0 : Fin m → E, PPXACall (List.ofFn fs) (weights.map List.ofFn) (.rows (List.ofFn y0)) τ η n (some tol) mx = (PPXA fs weights y0 τ η n tol mx).map PPXAState.toLists := by
    intro y0
    have hm' : m ≠ 0 := hm.ne'
    cases weights with
    | none =>
      simp only [PPXACall, PPXA, Option.map_none, List.length_ofFn, if_neg hm', Bind.bind, Except.bind, List.sum_ofFn]
      rw [key]
      rw [← List.ofFn_const]; rfl
    | some w =>
      simp only [PPXACall, PPXA, Option.map_some, List.length_ofFn, if_neg hm', Bind.bind, Except.bind, List.sum_ofFn]
      rw [key]
      rfl
  refine ⟨main y0, fun x0 => ?_⟩
  rw [← main]
  simp only [PPXACall, List.ofFn_const, List.length_ofFn]

/-- C124: with two functions or more, a list of weights or of starting points of another length is never accepted. -/
theorem C124_rejects (fs : List (ProxOp E)) (hm : 2 ≤ fs.length) (ws : List ℝ) (ys : List E) (τ η : ℝ) (n : ℕ) (hn : 0 < n) (tol : Option ℝ) (mx : E → ℝ)
    (h : ws.length ≠ fs.length ∨ ys.length ≠ fs.length) : ∀ r, PPXACall fs (some ws) (.rows ys) τ η n tol mx ≠ .ok r := by
  intro r hr
  obtain ⟨n, rfl⟩ := Nat.exists_eq_add_of_lt hn
  have : 0 + n + 1 = n + 1 := by omega
  rw [this] at hr
  simp only [PPXACall, Bind.bind, Except.bind] at hr
  split_ifs at hr with h1 h2 h3
  · simp only [forRange] at hr
    cases hb : PPXA.listBody fs ws τ η tol mx 0 ⟨(1 / (ys.length : ℝ)) • ys.sum, (1 / (ys.length : ℝ)) • ys.sum, ys, []⟩ with
    | error e => rw [hb] at hr; cases hr
    | ok q =>
      clear hr
      simp only [PPXA.listBody, Bind.bind, Except.bind] at hb
      cases hp : PPXA.proxRows τ fs ys ws with
      | error e => simp [hp] at hb
      | ok ps =>
        obtain ⟨e1, e2, e3⟩ := proxRows_length hp
        simp only [hp] at hb
        obtain ⟨p, p', ps, rfl⟩ : ∃ p p' qs, ps = p :: p' :: qs := by
          match ps, e1 with
          | [], e1 => simp at e1; omega
          | [p], e1 => simp at e1; omega
          | p :: p' :: qs, _ => exact ⟨p, p', qs, rfl⟩
        simp only [PPXA.weightedSum, PPXA.updateRows] at hb
        rw [e1] at hb
        by_cases hw : ws.length = fs.length
        · by_cases hy : ys.length = fs.length
          · exact h.elim (fun h => h hw) fun h => h hy
          · simp [hw, hy] at hb
        · simp [hw] at hb

/-- C124: with operators that return for positive steps and raise `ValueError` otherwise, a call with two functions or more returns exactly if there is one weight and one starting point per function,
no weight is `0` and the quotients `tau / w[i]` are positive. -/
theorem C124_returns_iff (fs : List (ProxOp E)) (hf : ∀ f ∈ fs, Guarded f) (hm : 2 ≤ fs.length) (ws : List ℝ) (ys : List E) (τ η : ℝ) (n : ℕ) (hn : 0 < n) (tol : ℝ) (mx : E → ℝ) :
    Returns (PPXACall fs (some ws) (.rows ys) τ η n (some tol) mx) ↔ ws.length = fs.length ∧ ys.length = fs.length ∧ ∀ w ∈ ws, w ≠ 0 ∧ 0 < τ / w := by
  by_cases h : ws.length = fs.length ∧ ys.length = fs.length
  · obtain ⟨h1, h2⟩ := h
    have e1 : fs = List.ofFn fun i : Fin fs.length => fs[i] := by simp
    have e2 : ws = List.ofFn fun i : Fin fs.length => ws[i] := by
      apply List.ext_getElem <;> simp [h1]
    have e3 : ys = List.ofFn fun i : Fin fs.length => ys[i] := by
      apply List.ext_getElem <;> simp [h2]
    have key := (C124_wellformed (by omega) (fun i : Fin fs.length => fs[i]) (some fun i : Fin fs.length => ws[i]) (fun i : Fin fs.length => ys[i]) τ η n tol mx).1
    rw [Option.map_some, ← e1, ← e2, ← e3] at key
    have hR : Returns (PPXACall fs (some ws) (.rows ys) τ η n (some tol) mx) ↔
        Returns (PPXA (fun i : Fin fs.length => fs[i]) (some fun i : Fin fs.length => ws[i]) (fun i : Fin fs.length => ys[i]) τ η n tol mx) := by
      rw [key]
      constructor
      · rintro ⟨a, ha⟩
        cases hp : PPXA (fun i : Fin fs.length => fs[i]) (some fun i : Fin fs.length => ws[i]) (fun i : Fin fs.length => ys[i]) τ η n tol mx with
        | error e => rw [hp] at ha; cases ha
        | ok r => exact ⟨r, rfl⟩
      · rintro ⟨a, ha⟩; exact ⟨_, by rw [ha]; rfl⟩
    have hgd : ∀ i : Fin fs.length, Guarded fs[i] := fun i => hf _ (List.getElem_mem _)
    rw [hR, C112_ppxa hgd]
    simp only [Option.getD_some]
    constructor
    · rintro ⟨-, h | h⟩
      · omega
      · refine ⟨h1, h2, fun w hw => ?_⟩
        obtain ⟨j, hj, rfl⟩ := List.getElem_of_mem hw
        exact h ⟨j, h1 ▸ hj⟩
    · rintro ⟨-, -, h⟩
      exact ⟨by omega, .inr fun i => h _ (List.getElem_mem _)⟩
  · constructor
    · rintro ⟨r, hr⟩
      exact absurd hr (C124_rejects fs hm ws ys τ η n hn (some tol) mx (by by_contra hc; push Not at hc; exact h hc) r)
    · rintro ⟨h1, h2, -⟩; exact absurd ⟨h1, h2⟩ h

/-- C124: no functions: `ZeroDivisionError` without weights; with weights `ValueError` if there is an iteration. -/
theorem C124_no_functions (ws : List ℝ) (x0 : PPXAStart E) (τ η : ℝ) (n : ℕ) (tol : Option ℝ) (mx : E → ℝ) :
    PPXACall [] none x0 τ η n tol mx = .error .zeroDivisionError ∧ PPXACall [] (some ws) x0 τ η (n + 1) tol mx = .error .valueError := by
  refine ⟨rfl, ?_⟩
  simp only [PPXACall, Bind.bind, Except.bind]
  split_ifs with h1 h2 h3
  · exact h2.elim
  · rfl
  · exact absurd rfl h3
  · simp only [forRange, PPXA.listBody, PPXA.proxRows, PPXA.weightedSum, Bind.bind, Except.bind]

/-- C124 fails for one function: extra weights are accepted, and the run is not that of `weights=[w0]`: on the constant function (every point a minimiser) two weights `1` move the start `v` to
`v + eta v`. -/
theorem C124_extra_weights_refuted (v : E) (hv : v ≠ 0) {τ η : ℝ} (hτ : 0 < τ) (hη : η ≠ 0) (tol : ℝ) (mx : E → ℝ) :
    (∃ r, PPXACall [noPenalty E] (some [1, 1]) (.vec v) τ η 1 (some tol) mx = .ok r ∧ r.x = v + η • v ∧ r.x ≠ v) ∧
    ∃ r, PPXACall [noPenalty E] (some [1]) (.vec v) τ η 1 (some tol) mx = .ok r ∧ r.x = v := by
  have hp : (noPenalty E).prox v τ = .ok v := by simp [ProxOp.prox, noPenalty, checkTau, hτ.not_ge]
  have hne : v + η • v ≠ v := fun h => by
    have : η • v = 0 := by simpa using h
    rcases smul_eq_zero.1 this with h | h
    · exact hη h
    · exact hv h
  constructor
  · have e : v + η • (v + v - v) = v + η • v := by module
    by_cases h : mx (v + η • v - v) < tol
    · refine ⟨⟨v + η • v, v, [v + η • ((2 : ℝ) • (v + v) - v - v)], [v + η • v]⟩, ?_, rfl, hne⟩
      simp only [PPXACall, Bind.bind, Except.bind, forRange, PPXA.listBody, PPXA.proxRows, PPXA.proxRow, one_ne_zero, if_false, div_one, hp, PPXA.weightedSum, PPXA.updateRows, List.length_singleton,
        List.replicate_one, Nat.cast_one, one_smul, List.map_cons, List.map_nil, List.sum_cons, List.sum_nil, add_zero, e, h, if_true, Pure.pure, Except.pure, List.nil_append]
    · refine ⟨⟨v + η • v, v + η • v, [v + η • ((2 : ℝ) • (v + v) - v - v)], [v + η • v]⟩, ?_, rfl, hne⟩
      simp only [PPXACall, Bind.bind, Except.bind, forRange, PPXA.listBody, PPXA.proxRows, PPXA.proxRow, one_ne_zero, if_false, div_one, hp, PPXA.weightedSum, PPXA.updateRows, List.length_singleton,
        List.replicate_one, Nat.cast_one, one_smul, List.map_cons, List.map_nil, List.sum_cons, List.sum_nil, add_zero, e, h, Pure.pure, Except.pure, List.nil_append]
      rfl
  · have e : v + η • (v - v) = v := by simp
    by_cases h : mx (v - v) < tol
    · refine ⟨⟨v, v, [v + η • ((2 : ℝ) • v - v - v)], [v]⟩, ?_, rfl⟩
      simp only [PPXACall, Bind.bind, Except.bind, forRange, PPXA.listBody, PPXA.proxRows, PPXA.proxRow, one_ne_zero, if_false, div_one, hp, PPXA.weightedSum, PPXA.updateRows, List.length_singleton,
        List.replicate_one, Nat.cast_one, one_smul, List.map_cons, List.map_nil, List.sum_cons, List.sum_nil, add_zero, e, h, if_true, Pure.pure, Except.pure, List.nil_append]
    · refine ⟨⟨v, v, [v + η • ((2 : ℝ) • v - v - v)], [v]⟩, ?_, rfl⟩
      simp only [PPXACall, Bind.bind, Except.bind, forRange, PPXA.listBody, PPXA.proxRows, PPXA.proxRow, one_ne_zero, if_false, div_one, hp, PPXA.weightedSum, PPXA.updateRows, List.length_singleton,
        List.replicate_one, Nat.cast_one, one_smul, List.map_cons, List.map_nil, List.sum_cons, List.sum_nil, add_zero, e, h, Pure.pure, Except.pure, List.nil_append]
      rfl

/-- C124 fails for `tol=None`, which both signatures allow: the comparison raises `TypeError` in the first iteration, whatever the functions, if they return. -/
theorem C124_tol_none_refuted {m : ℕ} (hm : 0 < m) (fs : Fin m → ProxOp E) (hf : ∀ i, Guarded (fs i)) (x0 : E) {τ : ℝ} (hτ : 0 < τ) (η : ℝ) (n : ℕ) (mx : E → ℝ) :
    PPXACall (List.ofFn fs) none (.vec x0) τ η (n + 1) none mx = .error .typeError ∧ ConsensusCall fs x0 τ (n + 1) none mx = .error .typeError := by
  constructor
  · have hw : ∀ i : Fin m, ∃ p, (if (1 / (m : ℝ)) = 0 then Except.error PyErr.nanResult else (fs i).prox x0 (τ / (1 / (m : ℝ)))) = .ok p := fun i => by
      have : (1 / (m : ℝ)) ≠ 0 := by positivity
      rw [if_neg this]
      exact ((hf i).prox _ _).2 (by positivity)
    obtain ⟨p, hp⟩ := (mapPy_returns (fun i : Fin m => if (1 / (m : ℝ)) = 0 then Except.error PyErr.nanResult else (fs i).prox x0 (τ / (1 / (m : ℝ))))).2 hw
    have h1 := proxRows_ofFn τ fs (fun _ => x0) fun _ => 1 / (m : ℝ)
    rw [hp] at h1
    rw [List.ofFn_const, List.ofFn_const] at h1
    have h2 := weightedSum_ofFn hm (fun _ => 1 / (m : ℝ)) p
    have h3 := updateRows_ofFn hm η ((1 / (m : ℝ)) • (List.replicate m x0).sum) (∑ i, (1 / (m : ℝ)) • p i) (fun _ => x0) p
    rw [List.ofFn_const] at h2 h3
    simp only [PPXACall, List.length_ofFn, hm.ne', if_false, Bind.bind, Except.bind, List.length_replicate, forRange, PPXA.listBody, h1, h2, h3, Except.map]
  · obtain ⟨q, hq⟩ := (mapPy_returns (fun i : Fin m => (fs i).prox (x0 - 0) τ)).2 fun i => ((hf i).prox _ _).2 hτ
    simp only [ConsensusCall, forRange, ConsensusADMM.body, Bind.bind, Except.bind, hq, hm.ne', if_false]
    split_ifs <;> rfl

/-- Hypotheses met: two squares with weights `1/4`, `3/4` are accepted, a third weight is not. -/
example : Returns (PPXACall [halfSqFn, halfSqFn] (some [1 / 4, 3 / 4]) (.rows [0, 1]) 1 1 5 (some 0) fun _ => 0) ∧
    ¬ Returns (PPXACall [halfSqFn, halfSqFn] (some [1 / 4, 3 / 4, 1]) (.rows [0, 1]) 1 1 5 (some 0) fun _ => 0) := by
  have hg : ∀ f ∈ [halfSqFn, halfSqFn], Guarded f := by simp [halfSqFn_guarded]
  rw [C124_returns_iff _ hg le_rfl _ _ _ _ _ (by norm_num), C124_returns_iff _ hg le_rfl _ _ _ _ _ (by norm_num)]
  norm_num

end Verif
