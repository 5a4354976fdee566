import Verif.Props.LowRank
import Verif.Spec.Optim
import Verif.Lemmas.Smooth
import Verif.Lemmas.Loop

/-! # C54, C55: PALM and iPALM -/

open scoped RealInnerProductSpace
open Filter Topology

set_option linter.unusedSectionVars false

namespace Verif

/-! ## Specification -/

section spec
variable {E F : Type} [NormedAddCommGroup E] [InnerProductSpace ℝ E] [NormedAddCommGroup F] [InnerProductSpace ℝ F]

/-- What the solvers expect of `H`: `gradx`, `grady` are its partial gradients (with the other block equal to the stored one) and `ly(y)`, `lx(x)` their Lipschitz constants. -/
structure BilOp.Exact (H : BilOp E F) : Prop where
  gradx : ∀ x y, IsGrad (fun x' => H.call x' y) x (H.gradx y x)
  grady : ∀ x y, IsGrad (fun y' => H.call x y') y (H.grady x y)
  ly : ∀ y, ∃ l, H.ly y = .ok l ∧ 0 ≤ l ∧ ∀ u v, ‖H.gradx y u - H.gradx y v‖ ≤ l * ‖u - v‖
  lx : ∀ x, ∃ l, H.lx x = .ok l ∧ 0 ≤ l ∧ ∀ u v, ‖H.grady x u - H.grady x v‖ ≤ l * ‖u - v‖

/-- The optional operator `p` of a block stands for the function `Φ`; `None` stands for zero. -/
def BlockExact (p : Option (ProxOp E)) (Φ : XFun E) : Prop :=
  (p = none ∧ Φ = XFun.ofReal fun _ => 0) ∨ ∃ q, p = some q ∧ ProxExact q Φ

/-- The objective `f(x) + g(y) + H(x, y)`. -/
noncomputable def palmObj (Φ : XFun E) (Ψ : XFun F) (H : BilOp E F) (x : E) (y : F) : ℝ := Φ.val x + Ψ.val y + H.call x y

/-- `(x, y)` is critical for `f(x) + g(y) + H(x, y)` with convex `f`, `g`: each block's negative gradient is a subgradient. -/
def IsCritical (Φ : XFun E) (Ψ : XFun F) (H : BilOp E F) (x : E) (y : F) : Prop :=
  ∃ gx gy, IsGrad (fun x' => H.call x' y) x gx ∧ IsGrad (fun y' => H.call x y') y gy ∧ IsSubgrad Φ x (-gx) ∧ IsSubgrad Ψ y (-gy)

end spec

/-! ## Block steps -/

section block
variable {E : Type} [NormedAddCommGroup E] [InnerProductSpace ℝ E]

lemma applyProx_exact {p : Option (ProxOp E)} {Φ : XFun E} (h : BlockExact p Φ) (x : E) {τ : ℝ} (hτ : 0 < τ) : ∃ q, applyProx p x τ = .ok q ∧ IsProx Φ τ x q := by
  rcases h with ⟨rfl, rfl⟩ | ⟨q, rfl, hq⟩
  · refine ⟨x, rfl, Set.mem_univ _, fun y _ => ?_⟩
    simp only [proxObj, XFun.ofReal, sub_self, norm_zero]
    have : 0 ≤ ‖y - x‖ ^ 2 / (2 * τ) := by positivity
    simpa using this
  · exact hq x τ hτ

/-- The decrease of a block step, for any function. -/
lemma block_step {Φ : XFun E} {g x p : E} {τ : ℝ} (hτ : 0 < τ) (hp : IsProx Φ τ (x - τ • g) p) (hx : x ∈ Φ.dom) :
    Φ.val p + ⟪g, p - x⟫ + ‖p - x‖ ^ 2 / (2 * τ) ≤ Φ.val x := by
  have h := hp.2 x hx
  simp only [proxObj] at h
  have e : ∀ w : E, ‖w - (x - τ • g)‖ ^ 2 = ‖w - x‖ ^ 2 + 2 * τ * ⟪g, w - x⟫ + τ ^ 2 * ‖g‖ ^ 2 := by
    intro w
    rw [show w - (x - τ • g) = (w - x) + τ • g by abel, norm_add_sq_real, real_inner_smul_right, norm_smul, mul_pow,
      Real.norm_eq_abs, sq_abs, real_inner_comm]; ring
  rw [e, e] at h
  have e3 : ∀ a b c : ℝ, (a + 2 * τ * b + c) / (2 * τ) = a / (2 * τ) + b + c / (2 * τ) := by
    intro a b c; field_simp
  rw [e3, e3] at h
  simp only [sub_self, norm_zero, inner_zero_right] at h
  have : (0 : ℝ) ^ 2 / (2 * τ) = 0 := by simp
  linarith

/-- The decrease of a block step, for a convex function. -/
lemma block_step_convex {Φ : XFun E} (hΦ : Φ.Convex) {g x p : E} {τ : ℝ} (hτ : 0 < τ) (hp : IsProx Φ τ (x - τ • g) p) (hx : x ∈ Φ.dom) :
    Φ.val p + ⟪g, p - x⟫ + ‖p - x‖ ^ 2 / τ ≤ Φ.val x := by
  have h := (subgrad_of_isProx hΦ hτ hp).2 x hx
  have e : ⟪(1 / τ) • (x - τ • g - p), x - p⟫ = ‖p - x‖ ^ 2 / τ + ⟪g, p - x⟫ := by
    rw [real_inner_smul_left, show x - τ • g - p = -(p - x) - τ • g by abel, show x - p = -(p - x) by abel, inner_neg_right, inner_sub_left,
      inner_neg_left, real_inner_self_eq_norm_sq, real_inner_smul_left]
    field_simp
    ring
  rw [e] at h
  linarith

lemma palmFixed_ok {l : Py ℝ} {γ : ℝ} {g : E} {p : Option (ProxOp E)} {Φ : XFun E} (hp : BlockExact p Φ) {z x' : E} (h : palmFixed l γ g p z = .ok x') {l' : ℝ}
    (hl : l = .ok l') (hl0 : 0 ≤ l') (hγ : 0 < γ) : 0 < γ * l' ∧ IsProx Φ (1 / (γ * l')) (z - (1 / (γ * l')) • g) x' := by
  subst hl
  simp only [palmFixed, Bind.bind, Except.bind] at h
  split_ifs at h with hc
  have hpos : 0 < γ * l' := lt_of_le_of_ne (by positivity) (Ne.symm hc)
  obtain ⟨q, h1, h2⟩ := applyProx_exact hp (z - (1 / (γ * l')) • g) (τ := 1 / (γ * l')) (by positivity)
  rw [h1] at h
  cases h
  exact ⟨hpos, h2⟩

lemma palmFixed_outcome {l : Py ℝ} {γ : ℝ} {g : E} {p : Option (ProxOp E)} {Φ : XFun E} (hp : BlockExact p Φ) (z : E) {l' : ℝ}
    (hl : l = .ok l') (hl0 : 0 ≤ l') (hγ : 0 < γ) : (l' = 0 ∧ palmFixed l γ g p z = .error .zeroDivisionError) ∨ ∃ x', palmFixed l γ g p z = .ok x' := by
  subst hl
  simp only [palmFixed, Bind.bind, Except.bind]
  by_cases hc : γ * l' = 0
  · refine Or.inl ⟨?_, by rw [if_pos hc]⟩
    rcases mul_eq_zero.1 hc with h | h
    · exact absurd h hγ.ne'
    · exact h
  · rw [if_neg hc]
    have hpos : 0 < γ * l' := lt_of_le_of_ne (by positivity) (Ne.symm hc)
    obtain ⟨q, h1, -⟩ := applyProx_exact hp (z - (1 / (γ * l')) • g) (τ := 1 / (γ * l')) (by positivity)
    exact Or.inr ⟨q, h1⟩

/-- What a successful backtracking search returns, when it makes at least one trial. -/
lemma palmBacktrack_ok {val : E → ℝ} {g : E} {p : Option (ProxOp E)} {Φ : XFun E} (hp : BlockExact p Φ) {β : ℝ} (hβ : 0 < β) {x : E} :
    ∀ (n : ℕ) (τ : ℝ) (z : E), 0 < τ → 0 < n → ∃ (q : E) (t : ℝ) (j : ℕ), palmBacktrack val g p β x n τ z = .ok (q, t) ∧ j ≤ n ∧ t = τ * β ^ j ∧
      ((j < n ∧ IsProx Φ t (x - t • g) q ∧ (val q ≤ val x + ⟪g, q - x⟫ + 1 / (2 * t) * ‖q - x‖ ^ 2 ∨ t < 1e-12)) ∨ j = n) := by
  intro n
  induction n with
  | zero => intro τ z _ h; exact absurd h (lt_irrefl _)
  | succ n ih =>
    intro τ z hτ _
    obtain ⟨q, h1, h2⟩ := applyProx_exact hp (x - τ • g) hτ
    simp only [palmBacktrack, h1, Bind.bind, Except.bind, if_neg hτ.ne']
    by_cases hc : val q ≤ val x + ⟪g, q - x⟫ + 1 / (2 * τ) * ‖q - x‖ ^ 2 ∨ τ < 1e-12
    · rw [if_pos hc]
      exact ⟨q, τ, 0, rfl, by omega, by simp, Or.inl ⟨by omega, h2, hc⟩⟩
    · rw [if_neg hc]
      rcases Nat.eq_zero_or_pos n with rfl | hn
      · exact ⟨q, τ * β, 1, rfl, le_rfl, by simp, Or.inr rfl⟩
      · obtain ⟨q', t, j, e1, e2, e3, e4⟩ := ih (τ * β) q (by positivity) hn
        refine ⟨q', t, j + 1, e1, by omega, by rw [e3]; ring, ?_⟩
        rcases e4 with ⟨h5, h6⟩ | h5
        · exact Or.inl ⟨by omega, h6⟩
        · exact Or.inr (by omega)

/-- If a step `β^k` with `β^k L ≤ 1`, not below the cut-off, is among the trials, the search ends with an accepted step, not below `β^k`. -/
lemma palmBacktrack_accepts {val : E → ℝ} {G : E → E} {p : Option (ProxOp E)} {Φ : XFun E} (hp : BlockExact p Φ) {β L : ℝ} (hβ : 0 < β) (hβ1 : β ≤ 1) {x : E}
    (hgrad : ∀ u, IsGrad val u (G u)) (hL : ∀ u v, ‖G u - G v‖ ≤ L * ‖u - v‖) {k : ℕ} (hk : β ^ k * L ≤ 1) (hcut : 1e-12 ≤ β ^ k) :
    ∀ (n i : ℕ) (z : E), i ≤ k → k < i + n → ∃ (q : E) (j : ℕ), palmBacktrack val (G x) p β x n (β ^ i) z = .ok (q, β ^ j) ∧ i ≤ j ∧ j ≤ k ∧
      IsProx Φ (β ^ j) (x - β ^ j • G x) q ∧ val q ≤ val x + ⟪G x, q - x⟫ + 1 / (2 * β ^ j) * ‖q - x‖ ^ 2 := by
  intro n
  induction n with
  | zero => intro i z h1 h2; omega
  | succ n ih =>
    intro i z hi hk'
    have hτ : 0 < β ^ i := by positivity
    obtain ⟨q, h1, h2⟩ := applyProx_exact hp (x - β ^ i • G x) hτ
    simp only [palmBacktrack, h1, Bind.bind, Except.bind, if_neg hτ.ne']
    have hcut' : ¬ β ^ i < 1e-12 := not_lt.2 (hcut.trans (pow_le_pow_of_le_one hβ.le hβ1 hi))
    by_cases hc : val q ≤ val x + ⟪G x, q - x⟫ + 1 / (2 * β ^ i) * ‖q - x‖ ^ 2
    · rw [if_pos (Or.inl hc)]
      exact ⟨q, i, rfl, le_rfl, hi, h2, hc⟩
    · rw [if_neg (not_or.2 ⟨hc, hcut'⟩)]
      have hik : i ≠ k := by
        rintro rfl
        apply hc
        have := suff_of_lipschitz hgrad hL hτ hk x q
        rw [one_div_mul_eq_div]; exact this
      obtain ⟨q', j, e1, e2, e3, e4⟩ := ih (i + 1) q (by omega) (by omega)
      rw [pow_succ] at e1
      exact ⟨q', j, e1, by omega, e3, e4⟩

lemma prox_fix_iff {Φ : XFun E} (hΦ : Φ.Convex) {τ : ℝ} (hτ : 0 < τ) (x g : E) : IsProx Φ τ (x - τ • g) x ↔ IsSubgrad Φ x (-g) := by
  rw [isProx_iff_subgrad hΦ hτ]
  have : (1 / τ) • (x - τ • g - x) = -g := by
    rw [show x - τ • g - x = -(τ • g) by abel, smul_neg, smul_smul, one_div, inv_mul_cancel₀ hτ.ne', one_smul]
  rw [this]

end block

variable {E F : Type} [NormedAddCommGroup E] [InnerProductSpace ℝ E] [NormedAddCommGroup F] [InnerProductSpace ℝ F]
variable {H : BilOp E F} {a : PalmArgs E F} {Φ : XFun E} {Ψ : XFun F} {x0 hx : E} {y0 hy : F}

lemma palm_nobreak : ∀ i (s s' : PalmState E F) b, PALM.body H a i s = .ok (s', b) → b = false := by
  intro i s s' b h
  simp only [PALM.body, Bind.bind, Except.bind] at h
  split at h
  · cases h
  · split at h
    · cases h
    · cases h; rfl

/-- One iteration of `PALM`, taken apart. -/
lemma palm_body_inv {i : ℕ} {s s' : PalmState E F} (h : PALM.body H a i s = .ok (s', false)) :
    palmStep a.gammaf (H.ly s.y) (fun x => H.call x s.y) (H.gradx s.hy s.x) a.proxf a.proxf a.β a.niterback s.x s.tauf = .ok (s'.x, s'.tauf) ∧
    palmStep a.gammag (H.lx s'.x) (fun y => H.call s'.x y) (H.grady s'.x s.y) a.proxg a.proxfY a.β a.niterback s.y s.taug = .ok (s'.y, s'.taug) ∧
    s'.hx = s'.x ∧ s'.hy = s'.y ∧ s'.log = s.log ++ [(s'.x, s'.y)] := by
  simp only [PALM.body, Bind.bind, Except.bind] at h
  split at h
  · cases h
  · rename_i v hv
    split at h
    · cases h
    · rename_i w hw
      cases h
      exact ⟨hv, hw, rfl, rfl, rfl⟩

/-- The blocks stored in `H` are the current ones after the first iteration; the callback saw every iterate. -/
lemma palm_stored (n : ℕ) (r : PalmState E F) (h : PALM H a hx hy x0 y0 n = .ok r) : (0 < n → r.hx = r.x ∧ r.hy = r.y) ∧ (hy = y0 → r.hy = r.y) := by
  cases n with
  | zero => cases h; exact ⟨fun h => absurd h (lt_irrefl _), fun h => h⟩
  | succ n =>
    obtain ⟨q, -, h2⟩ := forRange_succ palm_nobreak n 0 _ r h
    obtain ⟨-, -, h3, h4, -⟩ := palm_body_inv h2
    exact ⟨fun _ => ⟨h3, h4⟩, fun _ => h4⟩

lemma palmStep_fixed_inv {E : Type} [NormedAddCommGroup E] [InnerProductSpace ℝ E] {γ : ℝ} {l : Py ℝ} {val : E → ℝ} {g : E} {p pb : Option (ProxOp E)} {β : ℝ} {nb : ℕ} {z : E} {τ : ℝ}
    {x' : E} {τ' : ℝ} (h : palmStep (some γ) l val g p pb β nb z τ = .ok (x', τ')) : palmFixed l γ g p z = .ok x' ∧ τ' = τ := by
  simp only [palmStep, Bind.bind, Except.bind] at h
  split at h
  · cases h
  · rename_i v hv
    cases h
    exact ⟨hv, rfl⟩

/-- One iteration of `PALM` with both `gamma` given is a proximal gradient step on each block in turn. -/
lemma palm_fixed_step (hH : H.Exact) (hf : BlockExact a.proxf Φ) (hg : BlockExact a.proxg Ψ) {γf γg : ℝ} (hγf : a.gammaf = some γf) (hγg : a.gammag = some γg)
    (hf0 : 0 < γf) (hg0 : 0 < γg) (n : ℕ) (r r' : PalmState E F) (h : PALM H a hx hy x0 y0 n = .ok r) (h' : PALM H a hx hy x0 y0 (n + 1) = .ok r') (hst : 0 < n ∨ hy = y0) :
    ∃ lf lg : ℝ, H.ly r.y = .ok lf ∧ H.lx r'.x = .ok lg ∧ 0 < γf * lf ∧ 0 < γg * lg ∧
      (∀ u v, ‖H.gradx r.y u - H.gradx r.y v‖ ≤ lf * ‖u - v‖) ∧ (∀ u v, ‖H.grady r'.x u - H.grady r'.x v‖ ≤ lg * ‖u - v‖) ∧
      IsProx Φ (1 / (γf * lf)) (r.x - (1 / (γf * lf)) • H.gradx r.y r.x) r'.x ∧
      IsProx Ψ (1 / (γg * lg)) (r.y - (1 / (γg * lg)) • H.grady r'.x r.y) r'.y := by
  obtain ⟨q, h1, h2⟩ := forRange_succ palm_nobreak n 0 _ r' h'
  have : q = r := by
    have := h1.symm.trans h; cases this; rfl
  subst this
  obtain ⟨h3, h4, -⟩ := palm_body_inv h2
  have hs : q.hy = q.y := by
    obtain ⟨e1, e2⟩ := palm_stored n q h
    rcases hst with e | e
    · exact (e1 e).2
    · exact e2 e
  rw [hs] at h3
  rw [hγf] at h3
  rw [hγg] at h4
  obtain ⟨h3, -⟩ := palmStep_fixed_inv h3
  obtain ⟨h4, -⟩ := palmStep_fixed_inv h4
  obtain ⟨lf, a1, a2, a3⟩ := hH.ly q.y
  obtain ⟨lg, b1, b2, b3⟩ := hH.lx r'.x
  obtain ⟨c1, c2⟩ := palmFixed_ok hf h3 a1 a2 hf0
  obtain ⟨d1, d2⟩ := palmFixed_ok hg h4 b1 b2 hg0
  exact ⟨lf, lg, a1, b1, c1, d1, a3, b3, c2, d2⟩

/-- C54 (given `gamma`, any `f` and `g`, convex or not): from the second iteration on, and in the first too when `H` holds `y0` at the start, every iteration with `gammaf, gammag ≥ 1`
decreases `f(x) + g(y) + H(x, y)` by at least the stated amount.  Missing: the first iteration when `H` holds another `y` (refuted below) and backtracking (see below). -/
theorem C54_descent_partial (hH : H.Exact) (hf : BlockExact a.proxf Φ) (hg : BlockExact a.proxg Ψ) {γf γg : ℝ} (hγf : a.gammaf = some γf) (hγg : a.gammag = some γg)
    (hf0 : 1 ≤ γf) (hg0 : 1 ≤ γg) (n : ℕ) (r r' : PalmState E F) (h : PALM H a hx hy x0 y0 n = .ok r) (h' : PALM H a hx hy x0 y0 (n + 1) = .ok r') (hst : 0 < n ∨ hy = y0)
    (hx : r.x ∈ Φ.dom) (hy : r.y ∈ Ψ.dom) :
    r'.x ∈ Φ.dom ∧ r'.y ∈ Ψ.dom ∧ ∃ lf lg : ℝ, H.ly r.y = .ok lf ∧ H.lx r'.x = .ok lg ∧ 0 < lf ∧ 0 < lg ∧
      palmObj Φ Ψ H r'.x r'.y + (γf - 1) * lf / 2 * ‖r'.x - r.x‖ ^ 2 + (γg - 1) * lg / 2 * ‖r'.y - r.y‖ ^ 2 ≤ palmObj Φ Ψ H r.x r.y := by
  obtain ⟨lf, lg, a1, b1, c1, d1, a2, b2, p1, p2⟩ := palm_fixed_step hH hf hg hγf hγg (by linarith) (by linarith) n r r' h h' hst
  have hlf : 0 < lf := pos_of_mul_pos_right c1 (by linarith)
  have hlg : 0 < lg := pos_of_mul_pos_right d1 (by linarith)
  refine ⟨p1.1, p2.1, lf, lg, a1, b1, hlf, hlg, ?_⟩
  have s1 := block_step (by positivity) p1 hx
  have s2 := block_step (by positivity) p2 hy
  have t1 := descent_lemma (fun x => hH.gradx x r.y) a2 r.x r'.x
  have t2 := descent_lemma (fun y => hH.grady r'.x y) b2 r.y r'.y
  have e1 : ‖r'.x - r.x‖ ^ 2 / (2 * (1 / (γf * lf))) = γf * lf / 2 * ‖r'.x - r.x‖ ^ 2 := by field_simp
  have e2 : ‖r'.y - r.y‖ ^ 2 / (2 * (1 / (γg * lg))) = γg * lg / 2 * ‖r'.y - r.y‖ ^ 2 := by field_simp
  rw [e1] at s1
  rw [e2] at s2
  simp only [palmObj]
  linarith

/-- C54 for convex `f` and `g`: `gammaf, gammag ≥ 1/2` is enough. -/
theorem C54_descent_convex_partial (hH : H.Exact) (hΦ : Φ.Convex) (hΨ : Ψ.Convex) (hf : BlockExact a.proxf Φ) (hg : BlockExact a.proxg Ψ) {γf γg : ℝ} (hγf : a.gammaf = some γf)
    (hγg : a.gammag = some γg) (hf0 : 1 / 2 ≤ γf) (hg0 : 1 / 2 ≤ γg) (n : ℕ) (r r' : PalmState E F) (h : PALM H a hx hy x0 y0 n = .ok r)
    (h' : PALM H a hx hy x0 y0 (n + 1) = .ok r') (hst : 0 < n ∨ hy = y0) (hx : r.x ∈ Φ.dom) (hy : r.y ∈ Ψ.dom) :
    r'.x ∈ Φ.dom ∧ r'.y ∈ Ψ.dom ∧ ∃ lf lg : ℝ, H.ly r.y = .ok lf ∧ H.lx r'.x = .ok lg ∧ 0 < lf ∧ 0 < lg ∧
      palmObj Φ Ψ H r'.x r'.y + (γf - 1 / 2) * lf * ‖r'.x - r.x‖ ^ 2 + (γg - 1 / 2) * lg * ‖r'.y - r.y‖ ^ 2 ≤ palmObj Φ Ψ H r.x r.y := by
  obtain ⟨lf, lg, a1, b1, c1, d1, a2, b2, p1, p2⟩ := palm_fixed_step hH hf hg hγf hγg (by linarith) (by linarith) n r r' h h' hst
  have hlf : 0 < lf := pos_of_mul_pos_right c1 (by linarith)
  have hlg : 0 < lg := pos_of_mul_pos_right d1 (by linarith)
  refine ⟨p1.1, p2.1, lf, lg, a1, b1, hlf, hlg, ?_⟩
  have s1 := block_step_convex hΦ (by positivity) p1 hx
  have s2 := block_step_convex hΨ (by positivity) p2 hy
  have t1 := descent_lemma (fun x => hH.gradx x r.y) a2 r.x r'.x
  have t2 := descent_lemma (fun y => hH.grady r'.x y) b2 r.y r'.y
  have e1 : ‖r'.x - r.x‖ ^ 2 / (1 / (γf * lf)) = γf * lf * ‖r'.x - r.x‖ ^ 2 := by field_simp
  have e2 : ‖r'.y - r.y‖ ^ 2 / (1 / (γg * lg)) = γg * lg * ‖r'.y - r.y‖ ^ 2 := by field_simp
  rw [e1] at s1
  rw [e2] at s2
  simp only [palmObj]
  linarith

/-- C54: with convex `f`, `g` an iteration leaves both blocks where they are exactly when they are critical. -/
theorem C54_stationary (hH : H.Exact) (hΦ : Φ.Convex) (hΨ : Ψ.Convex) (hf : BlockExact a.proxf Φ) (hg : BlockExact a.proxg Ψ) {γf γg : ℝ} (hγf : a.gammaf = some γf)
    (hγg : a.gammag = some γg) (hf0 : 0 < γf) (hg0 : 0 < γg) (n : ℕ) (r r' : PalmState E F) (h : PALM H a hx hy x0 y0 n = .ok r)
    (h' : PALM H a hx hy x0 y0 (n + 1) = .ok r') (hst : 0 < n ∨ hy = y0) : r'.x = r.x ∧ r'.y = r.y ↔ IsCritical Φ Ψ H r.x r.y := by
  obtain ⟨lf, lg, a1, b1, c1, d1, a2, b2, p1, p2⟩ := palm_fixed_step hH hf hg hγf hγg hf0 hg0 n r r' h h' hst
  have c1' : 0 < 1 / (γf * lf) := by positivity
  have d1' : 0 < 1 / (γg * lg) := by positivity
  constructor
  · rintro ⟨ex, ey⟩
    rw [ex] at p1 p2
    rw [ey] at p2
    exact ⟨_, _, hH.gradx r.x r.y, hH.grady r.x r.y, (prox_fix_iff hΦ c1' _ _).1 p1, (prox_fix_iff hΨ d1' _ _).1 p2⟩
  · rintro ⟨gx, gy, g1, g2, s1, s2⟩
    have u1 : gx = H.gradx r.y r.x := by
      refine ext_inner_right ℝ fun v => ?_
      have := congrArg (fun L => L v) (HasFDerivAt.unique g1 (hH.gradx r.x r.y))
      simpa using this
    have u2 : gy = H.grady r.x r.y := by
      refine ext_inner_right ℝ fun v => ?_
      have := congrArg (fun L => L v) (HasFDerivAt.unique g2 (hH.grady r.x r.y))
      simpa using this
    rw [u1] at s1
    rw [u2] at s2
    have ex : r'.x = r.x := IsProx.unique hΦ c1' ((prox_fix_iff hΦ c1' _ _).2 s1) p1
    rw [ex] at p2
    exact ⟨ex, IsProx.unique hΨ d1' ((prox_fix_iff hΨ d1' _ _).2 s2) p2⟩

/-- C54: with given `gamma` the only way `PALM` can fail is the division by a zero Lipschitz constant. -/
theorem C54_outcome (hH : H.Exact) (hf : BlockExact a.proxf Φ) (hg : BlockExact a.proxg Ψ) {γf γg : ℝ} (hγf : a.gammaf = some γf) (hγg : a.gammag = some γg)
    (hf0 : 0 < γf) (hg0 : 0 < γg) (n : ℕ) : PALM H a hx hy x0 y0 n = .error .zeroDivisionError ∨ ∃ r, PALM H a hx hy x0 y0 n = .ok r := by
  have hb : ∀ i s, PALM.body H a i s = .error .zeroDivisionError ∨ ∃ s', PALM.body H a i s = .ok (s', false) := by
    intro i s
    obtain ⟨lf, a1, a2, -⟩ := hH.ly s.y
    simp only [PALM.body, palmStep, hγf, hγg, Bind.bind, Except.bind]
    rcases palmFixed_outcome (g := H.gradx s.hy s.x) hf s.x a1 a2 hf0 with ⟨-, e⟩ | ⟨x', e⟩
    · rw [e]; exact Or.inl rfl
    · rw [e]
      obtain ⟨lg, b1, b2, -⟩ := hH.lx x'
      simp only [Pure.pure, Except.pure]
      rcases palmFixed_outcome (g := H.grady x' s.y) hg s.y b1 b2 hg0 with ⟨-, e'⟩ | ⟨y', e'⟩
      · rw [e']; exact Or.inl rfl
      · rw [e']; exact Or.inr ⟨_, rfl⟩
  have key : ∀ n i s, forRange (PALM.body H a) n i s = .error .zeroDivisionError ∨ ∃ r, forRange (PALM.body H a) n i s = .ok r := by
    intro n
    induction n with
    | zero => intro i s; exact Or.inr ⟨s, rfl⟩
    | succ n ih =>
      intro i s
      rw [forRange]
      rcases hb i s with e | ⟨s', e⟩
      · rw [e]; exact Or.inl rfl
      · rw [e]; exact ih (i + 1) s'
  exact key n 0 _

/-- C54: if the objective is bounded below on the iterates, `gammaf, gammag > 1` and the Lipschitz constants stay away from zero, successive iterates get arbitrarily close. -/
theorem C54_steps_vanish (hH : H.Exact) (hf : BlockExact a.proxf Φ) (hg : BlockExact a.proxg Ψ) {γf γg : ℝ} (hγf : a.gammaf = some γf) (hγg : a.gammag = some γg)
    (hf0 : 1 < γf) (hg0 : 1 < γg) (r : ℕ → PalmState E F) (h : ∀ n, PALM H a hx hy x0 y0 n = .ok (r n)) {m l : ℝ} (hm : ∀ n, m ≤ palmObj Φ Ψ H (r n).x (r n).y)
    (hl : 0 < l) (hly : ∀ n l', H.ly (r n).y = .ok l' → l ≤ l') (hlx : ∀ n l', H.lx (r n).x = .ok l' → l ≤ l') (hst : x0 ∈ Φ.dom ∧ y0 ∈ Ψ.dom ∧ hy = y0) :
    Tendsto (fun n => ‖(r (n + 1)).x - (r n).x‖) atTop (𝓝 0) ∧ Tendsto (fun n => ‖(r (n + 1)).y - (r n).y‖) atTop (𝓝 0) := by
  have hdom : ∀ n, (r n).x ∈ Φ.dom ∧ (r n).y ∈ Ψ.dom := by
    intro n
    induction n with
    | zero =>
      have := h 0
      simp only [PALM, forRange, Except.ok.injEq] at this
      rw [← this]; exact ⟨hst.1, hst.2.1⟩
    | succ n ih =>
      obtain ⟨h1, h2, -⟩ := C54_descent_partial hH hf hg hγf hγg hf0.le hg0.le n _ _ (h n) (h (n + 1)) (Or.inr hst.2.2) ih.1 ih.2
      exact ⟨h1, h2⟩
  set c := min ((γf - 1) * l / 2) ((γg - 1) * l / 2) with hc
  have hc0 : 0 < c := lt_min (by nlinarith) (by nlinarith)
  have hdec : ∀ n, palmObj Φ Ψ H (r (n + 1)).x (r (n + 1)).y + c * (‖(r (n + 1)).x - (r n).x‖ ^ 2 + ‖(r (n + 1)).y - (r n).y‖ ^ 2) ≤ palmObj Φ Ψ H (r n).x (r n).y := by
    intro n
    obtain ⟨-, -, lf, lg, e1, e2, -, -, e3⟩ := C54_descent_partial hH hf hg hγf hγg hf0.le hg0.le n _ _ (h n) (h (n + 1)) (Or.inr hst.2.2) (hdom n).1 (hdom n).2
    have k1 := hly _ _ e1
    have k2 := hlx _ _ e2
    have c1 : c ≤ (γf - 1) * lf / 2 := (min_le_left _ _).trans (by nlinarith)
    have c2 : c ≤ (γg - 1) * lg / 2 := (min_le_right _ _).trans (by nlinarith)
    have q1 := mul_le_mul_of_nonneg_right c1 (sq_nonneg ‖(r (n + 1)).x - (r n).x‖)
    have q2 := mul_le_mul_of_nonneg_right c2 (sq_nonneg ‖(r (n + 1)).y - (r n).y‖)
    linarith
  have hanti : Antitone fun n => palmObj Φ Ψ H (r n).x (r n).y := antitone_nat_of_succ_le fun n => by
    have := hdec n
    have : 0 ≤ c * (‖(r (n + 1)).x - (r n).x‖ ^ 2 + ‖(r (n + 1)).y - (r n).y‖ ^ 2) := by positivity
    linarith [hdec n]
  have hconv := tendsto_atTop_ciInf hanti ⟨m, by rintro _ ⟨n, rfl⟩; exact hm n⟩
  have hdiff : Tendsto (fun n => (palmObj Φ Ψ H (r n).x (r n).y - palmObj Φ Ψ H (r (n + 1)).x (r (n + 1)).y) / c) atTop (𝓝 0) := by
    have := (hconv.sub (hconv.comp (tendsto_add_atTop_nat 1))).div_const c
    simpa using this
  have hsq : ∀ u : ℕ → ℝ, (∀ n, 0 ≤ u n) → (∀ n, u n ^ 2 ≤ (palmObj Φ Ψ H (r n).x (r n).y - palmObj Φ Ψ H (r (n + 1)).x (r (n + 1)).y) / c) → Tendsto u atTop (𝓝 0) := by
    intro u hu0 hu
    have h1 : Tendsto (fun n => u n ^ 2) atTop (𝓝 0) := squeeze_zero (fun n => sq_nonneg _) hu hdiff
    have h2 := (Real.continuous_sqrt.tendsto 0).comp h1
    simp only [Real.sqrt_zero] at h2
    refine h2.congr fun n => ?_
    simp [Real.sqrt_sq (hu0 n)]
  constructor
  · refine hsq _ (fun n => norm_nonneg _) fun n => ?_
    rw [le_div_iff₀ hc0]
    nlinarith [hdec n, sq_nonneg ‖(r (n + 1)).y - (r n).y‖]
  · refine hsq _ (fun n => norm_nonneg _) fun n => ?_
    rw [le_div_iff₀ hc0]
    nlinarith [hdec n, sq_nonneg ‖(r (n + 1)).x - (r n).x‖]

/-! ## Backtracking -/

/-- With backtracking on `y` the operator given for `y` has no effect whatever: the search on `y` uses the operator of `x`. -/
theorem C54_backtracking_refuted (h : a.gammag = none) (p : Option (ProxOp F)) (n : ℕ) : PALM H { a with proxg := p } hx hy x0 y0 n = PALM H a hx hy x0 y0 n := by
  have : PALM.body H { a with proxg := p } = PALM.body H a := by
    funext i s
    simp only [PALM.body, palmStep, h]
  rw [PALM, PALM, this]

/-- C54 with backtracking, when the operator passed for `x` is also right for `y`: if the block gradients have Lipschitz constant `L` and a trial step `beta^k` with `beta^k L ≤ 1` is
within reach of `niterback` and of the `1e-12` cut-off, every iteration decreases the objective and no step goes below `beta^k`. -/
theorem C54_backtracking_descent_partial (hH : H.Exact) (hf : BlockExact a.proxf Φ) (hg : BlockExact a.proxfY Ψ) (hγf : a.gammaf = none) (hγg : a.gammag = none)
    (hβ : 0 < a.β) (hβ1 : a.β ≤ 1) {L : ℝ} (hLx : ∀ y u v, ‖H.gradx y u - H.gradx y v‖ ≤ L * ‖u - v‖) (hLy : ∀ x u v, ‖H.grady x u - H.grady x v‖ ≤ L * ‖u - v‖)
    {k : ℕ} (hk : a.β ^ k * L ≤ 1) (hcut : 1e-12 ≤ a.β ^ k) (hnb : k < a.niterback) (hx0 : x0 ∈ Φ.dom) (hy0 : y0 ∈ Ψ.dom) (hst : hy = y0) (n : ℕ) :
    ∃ r r' : PalmState E F, PALM H a hx hy x0 y0 n = .ok r ∧ PALM H a hx hy x0 y0 (n + 1) = .ok r' ∧ r'.x ∈ Φ.dom ∧ r'.y ∈ Ψ.dom ∧
      palmObj Φ Ψ H r'.x r'.y ≤ palmObj Φ Ψ H r.x r.y ∧ a.β ^ k ≤ r'.tauf ∧ a.β ^ k ≤ r'.taug := by
  obtain ⟨S, h0, h1, h2, h3⟩ := forRange_traj_nobreak (PALM.body H a)
    (fun s => s.hy = s.y ∧ s.x ∈ Φ.dom ∧ s.y ∈ Ψ.dom ∧ (∃ i, i ≤ k ∧ s.tauf = a.β ^ i) ∧ ∃ i, i ≤ k ∧ s.taug = a.β ^ i)
    (fun _ s s' => palmObj Φ Ψ H s'.x s'.y ≤ palmObj Φ Ψ H s.x s.y) (fun i s hs => by
      obtain ⟨e1, e2, e3, ⟨i1, f1, f2⟩, ⟨i2, g1, g2⟩⟩ := hs
      obtain ⟨x', j1, s1, s2, s3, s4, s5⟩ := palmBacktrack_accepts (val := fun x => H.call x s.y) (x := s.x) hf hβ hβ1 (fun u => hH.gradx u s.y) (hLx s.y) hk hcut a.niterback i1 s.x
        f1 (by omega)
      obtain ⟨y', j2, t1, t2, t3, t4, t5⟩ := palmBacktrack_accepts (val := fun y => H.call x' y) (x := s.y) hg hβ hβ1 (fun u => hH.grady x' u) (hLy x') hk hcut a.niterback i2 s.y
        g1 (by omega)
      refine ⟨⟨x', y', a.β ^ j1, a.β ^ j2, x', y', s.log ++ [(x', y')]⟩, ?_, ⟨rfl, s4.1, t4.1, ⟨j1, s3, rfl⟩, j2, t3, rfl⟩, ?_⟩
      · simp only [PALM.body, palmStep, hγf, hγg, e1, f2, g2, s1, t1, Bind.bind, Except.bind, Pure.pure, Except.pure]
      · have b1 := block_step (by positivity) s4 e2
        have b2 := block_step (by positivity) t4 e3
        rw [one_div_mul_eq_div] at s5 t5
        simp only [palmObj]
        linarith)
    ⟨x0, y0, 1, 1, hx, hy, []⟩ ⟨hst, hx0, hy0, ⟨0, Nat.zero_le _, by simp⟩, 0, Nat.zero_le _, by simp⟩
  obtain ⟨-, q1, q2, ⟨i1, q3, q4⟩, ⟨i2, q5, q6⟩⟩ := h1 (n + 1)
  exact ⟨S n, S (n + 1), h3 n, h3 (n + 1), q1, q2, h2 n, by rw [q4]; exact pow_le_pow_of_le_one hβ.le hβ1 q3, by rw [q6]; exact pow_le_pow_of_le_one hβ.le hβ1 q5⟩

/-! ## The scalar factorisation `½ (x y - d)²` -/

/-- `H(x, y) = ½ (x y - d)²` on real numbers. -/
noncomputable def scalarBil (d : ℝ) : BilOp ℝ ℝ where
  call := fun x y => (x * y - d) ^ 2 / 2
  gradx := fun y x => (x * y - d) * y
  grady := fun x y => (x * y - d) * x
  lx := fun x => .ok (x ^ 2)
  ly := fun y => .ok (y ^ 2)

lemma real_inner_eq (a b : ℝ) : ⟪a, b⟫ = b * a := by simp

lemma scalarBil_exact (d : ℝ) : (scalarBil d).Exact where
  gradx := fun x y => isGrad_of_quad (C := y ^ 2 / 2) fun z => by
    simp only [scalarBil, real_inner_eq, Real.norm_eq_abs, sq_abs]
    rw [show (z * y - d) ^ 2 / 2 - (x * y - d) ^ 2 / 2 - (z - x) * ((x * y - d) * y) = y ^ 2 / 2 * (z - x) ^ 2 by ring, abs_of_nonneg (by positivity)]
  grady := fun x y => isGrad_of_quad (C := x ^ 2 / 2) fun z => by
    simp only [scalarBil, real_inner_eq, Real.norm_eq_abs, sq_abs]
    rw [show (x * z - d) ^ 2 / 2 - (x * y - d) ^ 2 / 2 - (z - y) * ((x * y - d) * x) = x ^ 2 / 2 * (z - y) ^ 2 by ring, abs_of_nonneg (by positivity)]
  ly := fun y => ⟨y ^ 2, rfl, by positivity, fun u v => by
    simp only [scalarBil, Real.norm_eq_abs]
    rw [show (u * y - d) * y - (v * y - d) * y = y ^ 2 * (u - v) by ring, abs_mul, abs_of_nonneg (by positivity : (0 : ℝ) ≤ y ^ 2)]⟩
  lx := fun x => ⟨x ^ 2, rfl, by positivity, fun u v => by
    simp only [scalarBil, Real.norm_eq_abs]
    rw [show (x * u - d) * x - (x * v - d) * x = x ^ 2 * (u - v) by ring, abs_mul, abs_of_nonneg (by positivity : (0 : ℝ) ≤ x ^ 2)]⟩

/-- Both blocks without regulariser and with the same `gamma`. -/
noncomputable def plainArgs (γ : ℝ) : PalmArgs ℝ ℝ := ⟨none, none, none, some γ, some γ, 1 / 2, 10⟩

/-- One iteration on the scalar factorisation. -/
lemma scalar_palm (d γ x0 y0 hx hy : ℝ) (hγ : 0 < γ) (hy0 : y0 ≠ 0) (hx1 : x0 - (x0 * hy - d) * hy / (γ * y0 ^ 2) ≠ 0) :
    ∃ r, PALM (scalarBil d) (plainArgs γ) hx hy x0 y0 1 = .ok r ∧ r.x = x0 - (x0 * hy - d) * hy / (γ * y0 ^ 2) ∧ r.x * r.y - d = (1 - 1 / γ) * (r.x * y0 - d) := by
  set x1 := x0 - (x0 * hy - d) * hy / (γ * y0 ^ 2) with hx1d
  have e1 : palmFixed (.ok (y0 ^ 2)) γ ((x0 * hy - d) * hy) none x0 = .ok x1 := by
    have : γ * y0 ^ 2 ≠ 0 := by positivity
    simp only [palmFixed, Bind.bind, Except.bind, if_neg this, applyProx, smul_eq_mul, hx1d]
    congr 1; ring
  have e2 : palmFixed (.ok (x1 ^ 2)) γ ((x1 * y0 - d) * x1) none y0 = .ok (y0 - (x1 * y0 - d) * x1 / (γ * x1 ^ 2)) := by
    have : γ * x1 ^ 2 ≠ 0 := by positivity
    simp only [palmFixed, Bind.bind, Except.bind, if_neg this, applyProx, smul_eq_mul]
    congr 1; ring
  refine ⟨⟨x1, y0 - (x1 * y0 - d) * x1 / (γ * x1 ^ 2), 1, 1, x1, y0 - (x1 * y0 - d) * x1 / (γ * x1 ^ 2), [(x1, y0 - (x1 * y0 - d) * x1 / (γ * x1 ^ 2))]⟩, ?_, rfl, ?_⟩
  · simp only [PALM, forRange, PALM.body, palmStep, plainArgs, scalarBil, e1, e2, Bind.bind, Except.bind, Pure.pure, Except.pure]
    rfl
  · simp only
    field_simp
    ring

/-- `gamma < 1/2` makes the objective grow on every scalar factorisation problem that is not solved at the start, although `H`, the operators and the stored blocks are all right. -/
theorem C54_small_gamma_refuted (d γ x0 y0 hx : ℝ) (hγ : 0 < γ) (hγ2 : γ < 1 / 2) (hy0 : y0 ≠ 0) (hr : x0 * y0 ≠ d) (hx1 : x0 - (x0 * y0 - d) * y0 / (γ * y0 ^ 2) ≠ 0) :
    ∃ r, PALM (scalarBil d) (plainArgs γ) hx y0 x0 y0 1 = .ok r ∧
      palmObj (XFun.ofReal fun _ => 0) (XFun.ofReal fun _ => 0) (scalarBil d) x0 y0 < palmObj (XFun.ofReal fun _ => 0) (XFun.ofReal fun _ => 0) (scalarBil d) r.x r.y := by
  obtain ⟨r, h1, h2, h3⟩ := scalar_palm d γ x0 y0 hx y0 hγ hy0 hx1
  refine ⟨r, h1, ?_⟩
  have h4 : r.x * y0 - d = (1 - 1 / γ) * (x0 * y0 - d) := by
    rw [h2]; field_simp
    ring
  simp only [palmObj, XFun.ofReal, scalarBil, zero_add]
  rw [h3, h4]
  have hq : 1 < (1 - 1 / γ) ^ 2 := by
    have : 2 < 1 / γ := by rw [lt_div_iff₀ hγ]; linarith
    nlinarith
  have hd : 0 < (x0 * y0 - d) ^ 2 := by
    have : x0 * y0 - d ≠ 0 := sub_ne_zero.2 hr
    positivity
  have e : ((1 - 1 / γ) * ((1 - 1 / γ) * (x0 * y0 - d))) ^ 2 = ((1 - 1 / γ) ^ 2) ^ 2 * (x0 * y0 - d) ^ 2 := by ring
  rw [e]
  have : 1 < ((1 - 1 / γ) ^ 2) ^ 2 := by nlinarith
  nlinarith

/-- The first iteration uses the `y` stored in `H`, not `y0`: started at an exact factorisation `x0 y0 = d`, `PALM` leaves it for every stored `y ∉ {0, y0}` and the objective grows from
zero, for every `gamma > 1`. -/
theorem C54_stored_y_refuted (d γ x0 y0 hx hy : ℝ) (hγ : 1 < γ) (hy0 : y0 ≠ 0) (hr : x0 * y0 = d) (hd : d ≠ 0) (h0 : hy ≠ 0) (hne : hy ≠ y0)
    (hx1 : x0 - (x0 * hy - d) * hy / (γ * y0 ^ 2) ≠ 0) :
    ∃ r, PALM (scalarBil d) (plainArgs γ) hx hy x0 y0 1 = .ok r ∧
      palmObj (XFun.ofReal fun _ => 0) (XFun.ofReal fun _ => 0) (scalarBil d) x0 y0 = 0 ∧ 0 < palmObj (XFun.ofReal fun _ => 0) (XFun.ofReal fun _ => 0) (scalarBil d) r.x r.y := by
  have hγ0 : 0 < γ := by linarith
  obtain ⟨r, h1, h2, h3⟩ := scalar_palm d γ x0 y0 hx hy hγ0 hy0 hx1
  refine ⟨r, h1, by simp [palmObj, XFun.ofReal, scalarBil, hr], ?_⟩
  have hx0 : x0 ≠ 0 := by rintro rfl; rw [zero_mul] at hr; exact hd hr.symm
  have h4 : r.x * y0 - d = -(x0 * (hy - y0) * hy) / (γ * y0) := by
    rw [h2, ← hr]; field_simp
    ring
  simp only [palmObj, XFun.ofReal, scalarBil, zero_add]
  rw [h3, h4]
  have a1 : (1 - 1 / γ) ≠ 0 := by
    have : 1 / γ < 1 := by rw [div_lt_one hγ0]; exact hγ
    linarith
  have a2 : hy - y0 ≠ 0 := sub_ne_zero.2 hne
  have : (1 - 1 / γ) * (-(x0 * (hy - y0) * hy) / (γ * y0)) ≠ 0 :=
    mul_ne_zero a1 (div_ne_zero (neg_ne_zero.2 (mul_ne_zero (mul_ne_zero hx0 a2) h0)) (mul_ne_zero hγ0.ne' hy0))
  positivity

/-- The hypotheses are met: the factorisation of the library without `Op` satisfies `Exact`. -/
theorem C54_lowrank_exact {ι κ μ : Type} [Fintype ι] [Fintype κ] [Fintype μ] (L : LowRank ι κ μ (Vec (ι × μ))) (hid : ∀ v, L.Op.matvec v = v) (hop : L.opGiven = false) : L.bil.Exact where
  gradx := fun x y => by
    have := C63_gradx L ⟨x, y⟩ x
    have e : (fun x' => L.bil.call x' y) = fun x' => (L.call ⟨x, y⟩ x' y).1 := by funext x'; simp only [LowRank.bil, C63_call]
    rw [e]; exact this
  grady := fun x y => by
    have := C63_grady L ⟨x, y⟩ y
    have e : (fun y' => L.bil.call x y') = fun y' => (L.call ⟨x, y⟩ x y').1 := by funext y'; simp only [LowRank.bil, C63_call]
    rw [e]; exact this
  ly := fun y => by
    obtain ⟨l, h1, h2, h3⟩ := (C63_lipschitz L hid hop 0 y).1
    refine ⟨l, h1, h2, fun u v => ?_⟩
    have := h3 ⟨0, y⟩ rfl u v
    simpa [LowRank.bil, LowRank.gradx, LowRank.matvecx] using this
  lx := fun x => by
    obtain ⟨l, h1, h2, h3⟩ := (C63_lipschitz L hid hop x 0).2
    refine ⟨l, h1, h2, fun u v => ?_⟩
    have := h3 ⟨x, 0⟩ rfl u v
    simpa [LowRank.bil, LowRank.grady, LowRank.matvecy] using this

example : BlockExact (none : Option (ProxOp ℝ)) (XFun.ofReal fun _ => 0) ∧ (plainArgs 2).gammaf = some 2 ∧ (plainArgs 2).gammag = some 2 := ⟨Or.inl ⟨rfl, rfl⟩, rfl, rfl⟩

example : ∃ r, PALM (scalarBil 1) (plainArgs (1 / 4)) 0 1 2 1 1 = .ok r := by
  obtain ⟨r, h, -⟩ := C54_small_gamma_refuted 1 (1 / 4) 2 1 0 (by norm_num) (by norm_num) (by norm_num) (by norm_num) (by norm_num)
  exact ⟨r, h⟩

example : ∃ r, PALM (scalarBil 1) (plainArgs 2) 0 3 1 1 1 = .ok r := by
  obtain ⟨r, h, -⟩ := C54_stored_y_refuted 1 2 1 1 0 3 (by norm_num) (by norm_num) (by norm_num) (by norm_num) (by norm_num) (by norm_num) (by norm_num)
  exact ⟨r, h⟩

end Verif
