import Verif.Props.Twist
import Verif.Props.Splitting
import Verif.Props.Calculus

/-! # C96: convergence of TwIST

The docstring derives `alpha` and `beta` from the extreme eigenvalues of `AᴴA` and calls them optimal.  They are for `g = 0`; for other convex `g`
the iterates may cycle.  With `eigs` given and an upper eigenvalue below 1, the documented `max(1, ·)` is not applied and the iterates may diverge.
A region of parameters is given in which TwIST always converges. -/

open scoped RealInnerProductSpace
open Filter Topology

set_option linter.unusedSectionVars false

namespace Verif

variable {E D : Type} [NormedAddCommGroup E] [InnerProductSpace ℝ E] [NormedAddCommGroup D] [InnerProductSpace ℝ D]
variable {g : ProxOp E} {F : XFun E} {A : LinOp E D} {b : D} {x0 : E} {α β : ℝ} {rc : Bool}

/-- The proximal gradient map with unit step. -/
def istMap (A : LinOp E D) (b : D) (P : E → E) (x : E) : E := P (x - A.rmatvec (A.matvec x - b))

/-- TwIST returns for every number of iterations, and the iterates obey the documented recursion. -/
lemma twist_traj {P : E → E} (hP : ∀ x, g.prox x 1 = .ok (P x)) (hcall : rc = true → ∀ x, ∃ v, g.call x = .ok v) (eigs : ℝ × ℝ) (x0 : E) :
    ∃ (s : ℕ → TwistState E) (X : ℕ → E), (∀ n, TwIST g A b x0 (some (α, β)) eigs n rc = .ok (s n)) ∧ X 0 = x0 ∧ X 1 = istMap A b P x0 ∧
      (∀ n, X (n + 2) = (1 - α) • X n + (α - β) • X (n + 1) + β • istMap A b P (X (n + 1))) ∧ ∀ n, (s n).x = X (n + 1) := by
  obtain ⟨S, h0, -, h2, h3⟩ := forRange_traj_nobreak (TwIST.body g A b α β rc) (fun _ => True)
    (fun _ s s' => s'.x = (1 - α) • s.xold + (α - β) • s.x + β • istMap A b P s.x ∧ s'.xold = s.x)
    (fun i s _ => by
      cases rc with
      | false => exact ⟨_, by simp only [TwIST.body, twistGrad_eq, hP, Bind.bind, Except.bind, Pure.pure, Except.pure, Bool.false_eq_true, if_false]; rfl, trivial, rfl, rfl⟩
      | true =>
        obtain ⟨v, hv⟩ := hcall rfl ((1 - α) • s.xold + (α - β) • s.x + β • P (s.x - A.rmatvec (A.matvec s.x - b)))
        exact ⟨_, by simp only [TwIST.body, twistGrad_eq, hP, hv, Bind.bind, Except.bind, Pure.pure, Except.pure, if_true]; rfl, trivial, rfl, rfl⟩)
    ⟨istMap A b P x0, x0, [], []⟩ trivial
  refine ⟨S, fun n => Nat.casesOn n x0 fun m => (S m).x, fun n => ?_, rfl, ?_, fun n => ?_, fun n => rfl⟩
  · simp only [TwIST, twistGrad_eq, hP, Bind.bind, Except.bind, Pure.pure, Except.pure]
    exact h3 n
  · show (S 0).x = _; rw [h0]
  · cases n with
    | zero => show (S 1).x = (1 - α) • x0 + (α - β) • (S 0).x + β • istMap A b P (S 0).x; rw [(h2 0).1, h0]
    | succ m =>
      show (S (m + 2)).x = (1 - α) • (S m).x + (α - β) • (S (m + 1)).x + β • istMap A b P (S (m + 1)).x
      rw [(h2 (m + 1)).1, (h2 m).2]

/-! ## A region of convergence -/

/-- `x - T x` is cocoercive relative to fixed points. -/
lemma ist_cocoercive (hF : F.Convex) {P : E → E} (hP : ∀ x, IsProx F 1 x (P x)) {L : ℝ} (hA : ∀ v, ‖A.matvec v‖ ^ 2 ≤ L * ‖v‖ ^ 2) {x c : E}
    (hc : istMap A b P c = c) : (1 - L / 4) * ‖x - istMap A b P x‖ ^ 2 ≤ ⟪x - istMap A b P x, x - c⟫ := by
  have hf := firm_prox hF one_pos hP (x - A.rmatvec (A.matvec x - b)) (c - A.rmatvec (A.matvec c - b))
  change ‖istMap A b P x - istMap A b P c‖ ^ 2 ≤ ⟪istMap A b P x - istMap A b P c, _⟫ at hf
  rw [hc] at hf
  have e0 : x - A.rmatvec (A.matvec x - b) - (c - A.rmatvec (A.matvec c - b)) = (x - c) - A.rmatvec (A.matvec (x - c)) := by
    simp only [map_sub]; abel
  rw [e0] at hf
  set w := x - istMap A b P x with hw
  have e1 : istMap A b P x - c = (x - c) - w := by rw [hw]; abel
  rw [e1] at hf
  set u := x - c
  clear_value u w
  have a1 : ⟪u, A.rmatvec (A.matvec u)⟫ = ‖A.matvec u‖ ^ 2 := by rw [← A.dot, real_inner_self_eq_norm_sq]
  have a2 : ⟪w, A.rmatvec (A.matvec u)⟫ = ⟪A.matvec w, A.matvec u⟫ := by rw [← A.dot]
  have a3 := real_inner_le_norm (A.matvec w) (A.matvec u)
  rw [norm_sub_sq_real, inner_sub_right, inner_sub_left, inner_sub_left, a1, a2, real_inner_self_eq_norm_sq, real_inner_comm] at hf
  nlinarith [hA w, sq_nonneg (‖A.matvec w‖ / 2 - ‖A.matvec u‖)]

/-- A positive definite form in two vectors dominates both squares. -/
lemma quad_dominates {p q r : ℝ} (hp : 0 < p) (hr : 0 < r) (h : q ^ 2 < p * r) :
    ∃ ε > 0, ∀ x y : E, ε * (‖x‖ ^ 2 + ‖y‖ ^ 2) ≤ p * ‖x‖ ^ 2 + 2 * q * ⟪x, y⟫ + r * ‖y‖ ^ 2 := by
  refine ⟨(p * r - q ^ 2) / (p + r), div_pos (by linarith) (by linarith), fun x y => ?_⟩
  set ε := (p * r - q ^ 2) / (p + r) with hε
  have e : ε * (p + r) = p * r - q ^ 2 := by rw [hε]; field_simp
  have hεp : ε < p := by
    rw [hε, div_lt_iff₀ (by linarith)]; nlinarith [sq_nonneg q]
  have hdet : 0 ≤ (p - ε) * (r - ε) - q ^ 2 := by nlinarith [sq_nonneg ε]
  have hs : (p - ε) * ((p - ε) * ‖x‖ ^ 2 + 2 * q * ⟪x, y⟫ + (r - ε) * ‖y‖ ^ 2) = ‖(p - ε) • x + q • y‖ ^ 2 + ((p - ε) * (r - ε) - q ^ 2) * ‖y‖ ^ 2 := by
    rw [norm_add_sq_real, norm_smul, norm_smul, mul_pow, mul_pow, Real.norm_eq_abs, Real.norm_eq_abs, sq_abs, sq_abs, real_inner_smul_left,
      real_inner_smul_right]; ring
  have h1 : 0 ≤ (p - ε) * ((p - ε) * ‖x‖ ^ 2 + 2 * q * ⟪x, y⟫ + (r - ε) * ‖y‖ ^ 2) := by rw [hs]; positivity
  have h2 := nonneg_of_mul_nonneg_right h1 (sub_pos.2 hεp)
  linarith

/-- The condition on the parameters makes the Lyapunov form positive for a suitable weight. -/
lemma twist_weight {a β θ : ℝ} (ha : |a| < 1) (hβ : 0 < β) (h : β * (1 + |a|) < 2 * θ * (1 - a) * (1 - |a|)) :
    ∃ m > 0, 0 < 2 * β * (1 - a) * θ - β ^ 2 * (1 + m) ∧ (a * β * (1 + m)) ^ 2 < (2 * β * (1 - a) * θ - β ^ 2 * (1 + m)) * (m * (1 - a ^ 2)) := by
  rcases eq_or_ne a 0 with rfl | h0
  · simp only [abs_zero, sub_zero, mul_one, add_zero] at h
    have hm : 0 < (2 * θ - β) / (2 * β) := div_pos (by linarith) (by linarith)
    have e : β ^ 2 * (1 + (2 * θ - β) / (2 * β)) = β * (θ + β / 2) := by field_simp; ring
    have hpos : 0 < 2 * β * (1 - 0) * θ - β ^ 2 * (1 + (2 * θ - β) / (2 * β)) := by rw [e]; nlinarith
    exact ⟨_, hm, hpos, by simpa using mul_pos hpos hm⟩
  · have hpa : 0 < |a| := abs_pos.2 h0
    have hsq : a ^ 2 = |a| ^ 2 := (sq_abs a).symm
    have hkey : β * (1 + |a|) * |a| < (2 * (1 - a) * θ - β * (1 + |a|)) * (1 - |a|) := by nlinarith
    have hpos : 0 < 2 * (1 - a) * θ - β * (1 + |a|) := by
      by_contra hc
      push Not at hc
      have h1 : 0 < β * (1 + |a|) * |a| := by positivity
      nlinarith [mul_nonneg (neg_nonneg.2 hc) (sub_pos.2 ha).le]
    refine ⟨|a|, hpa, ?_, ?_⟩
    · have := mul_pos hβ hpos; nlinarith
    · have h1 : 0 < β * (1 + |a|) * |a| := by positivity
      have h2 := mul_lt_mul_of_pos_left hkey h1
      have e : (a * β * (1 + |a|)) ^ 2 = β * (1 + |a|) * |a| * (β * (1 + |a|) * |a|) := by rw [mul_pow, mul_pow, hsq]; ring
      rw [e, hsq]
      calc _ < _ := h2
        _ = _ := by ring

/-- One step decreases the Lyapunov form. -/
lemma twostep_decrease {a β θ m ε κ w : ℝ} (ha1 : 0 < 1 - a) (hα : |a| < 1) (hβ : 0 < β) (hε : 0 < ε) (hκ : κ = a / (1 - a)) (hw : w = m / (1 - a) ^ 2) (u d G : E)
    (hG : θ * ‖G‖ ^ 2 ≤ ⟪G, u⟫)
    (hd : ε * (‖G‖ ^ 2 + ‖d‖ ^ 2) ≤ (2 * β * (1 - a) * θ - β ^ 2 * (1 + m)) * ‖G‖ ^ 2 + 2 * (a * β * (1 + m)) * ⟪G, d⟫ + m * (1 - a ^ 2) * ‖d‖ ^ 2) :
    ‖u + κ • d - (β / (1 - a)) • G‖ ^ 2 + w * ‖a • d - β • G‖ ^ 2 + ε / ((1 - a) ^ 2 * (3 + 2 * β ^ 2)) * ‖(a • d - β • G, d)‖ ^ 2 ≤
      ‖u + κ • d‖ ^ 2 + w * ‖d‖ ^ 2 := by
  have t1 : ‖u + κ • d - (β / (1 - a)) • G‖ ^ 2 = ‖u + κ • d‖ ^ 2 - 2 * (β / (1 - a)) * (⟪G, u⟫ + κ * ⟪G, d⟫) + (β / (1 - a)) ^ 2 * ‖G‖ ^ 2 := by
    rw [norm_sub_sq_real, real_inner_smul_right, norm_smul, mul_pow, Real.norm_eq_abs, sq_abs, real_inner_comm, inner_add_right, real_inner_smul_right]; ring
  have t2 : ‖a • d - β • G‖ ^ 2 = a ^ 2 * ‖d‖ ^ 2 - 2 * (a * β) * ⟪G, d⟫ + β ^ 2 * ‖G‖ ^ 2 := by
    rw [norm_sub_sq_real, real_inner_smul_right, real_inner_smul_left, norm_smul, norm_smul, mul_pow, mul_pow, Real.norm_eq_abs, Real.norm_eq_abs, sq_abs, sq_abs,
      real_inner_comm]; ring
  have t3 : ‖(a • d - β • G, d)‖ ^ 2 ≤ (3 + 2 * β ^ 2) * (‖G‖ ^ 2 + ‖d‖ ^ 2) := by
    have n1 : ‖a • d - β • G‖ ^ 2 ≤ 2 * ‖d‖ ^ 2 + 2 * β ^ 2 * ‖G‖ ^ 2 := by
      have := norm_sub_le (a • d) (β • G)
      rw [norm_smul, norm_smul, Real.norm_eq_abs, Real.norm_of_nonneg hβ.le] at this
      have h2 := pow_le_pow_left₀ (norm_nonneg _) this 2
      have h3 : |a| * ‖d‖ ≤ ‖d‖ := by nlinarith [norm_nonneg d]
      have h4 : (|a| * ‖d‖) ^ 2 ≤ ‖d‖ ^ 2 := pow_le_pow_left₀ (by positivity) h3 2
      nlinarith [sq_nonneg (|a| * ‖d‖ - β * ‖G‖)]
    have n2 : 0 ≤ β ^ 2 * ‖d‖ ^ 2 := by positivity
    have n3 : 0 ≤ β ^ 2 * ‖G‖ ^ 2 := by positivity
    rw [Prod.norm_def]
    have n4 : 0 ≤ ‖d‖ ^ 2 := by positivity
    have n5 : 0 ≤ ‖G‖ ^ 2 := by positivity
    have n6 : (3 + 2 * β ^ 2) * (‖G‖ ^ 2 + ‖d‖ ^ 2) = 3 * ‖G‖ ^ 2 + 3 * ‖d‖ ^ 2 + 2 * (β ^ 2 * ‖G‖ ^ 2) + 2 * (β ^ 2 * ‖d‖ ^ 2) := by ring
    rw [n6]
    rcases max_choice ‖a • d - β • G‖ ‖d‖ with h | h
    · simp only [h]; linarith
    · simp only [h]; linarith
  have t4 : ε / ((1 - a) ^ 2 * (3 + 2 * β ^ 2)) * ‖(a • d - β • G, d)‖ ^ 2 ≤ ε / (1 - a) ^ 2 * (‖G‖ ^ 2 + ‖d‖ ^ 2) := by
    refine (mul_le_mul_of_nonneg_left t3 (by positivity)).trans (le_of_eq ?_)
    field_simp
  have t5 : (1 - a) ^ 2 * (- 2 * (β / (1 - a)) * (⟪G, u⟫ + κ * ⟪G, d⟫) + (β / (1 - a)) ^ 2 * ‖G‖ ^ 2 + w * (a ^ 2 * ‖d‖ ^ 2 - 2 * (a * β) * ⟪G, d⟫ + β ^ 2 * ‖G‖ ^ 2)
      - w * ‖d‖ ^ 2) = -2 * β * (1 - a) * ⟪G, u⟫ - (-(β ^ 2 * (1 + m)) * ‖G‖ ^ 2 + 2 * (a * β * (1 + m)) * ⟪G, d⟫ + m * (1 - a ^ 2) * ‖d‖ ^ 2) := by
    rw [hκ, hw]; field_simp; ring
  have t6 : 2 * β * (1 - a) * (θ * ‖G‖ ^ 2) ≤ 2 * β * (1 - a) * ⟪G, u⟫ := mul_le_mul_of_nonneg_left hG (by positivity)
  have t7 : (1 - a) ^ 2 * (- 2 * (β / (1 - a)) * (⟪G, u⟫ + κ * ⟪G, d⟫) + (β / (1 - a)) ^ 2 * ‖G‖ ^ 2 + w * (a ^ 2 * ‖d‖ ^ 2 - 2 * (a * β) * ⟪G, d⟫ + β ^ 2 * ‖G‖ ^ 2)
      - w * ‖d‖ ^ 2) ≤ (1 - a) ^ 2 * (-(ε / (1 - a) ^ 2 * (‖G‖ ^ 2 + ‖d‖ ^ 2))) := by
    rw [t5]
    have : (1 - a) ^ 2 * (-(ε / (1 - a) ^ 2 * (‖G‖ ^ 2 + ‖d‖ ^ 2))) = -(ε * (‖G‖ ^ 2 + ‖d‖ ^ 2)) := by field_simp
    rw [this]; linarith
  have t8 := le_of_mul_le_mul_left t7 (by positivity)
  rw [t1, t2]; linarith

/-- The Lyapunov form controls the norm. -/
lemma twostep_coercive {κ w : ℝ} (hwpos : 0 < w) (v : E × E) :
    1 / (2 + 2 * (|κ| + 1) ^ 2 / w) * ‖v‖ ^ 2 ≤ ‖v.1 + κ • (v.1 - v.2)‖ ^ 2 + w * ‖v.1 - v.2‖ ^ 2 := by
  let Q : E × E → ℝ := fun v => ‖v.1 + κ • (v.1 - v.2)‖ ^ 2 + w * ‖v.1 - v.2‖ ^ 2
  change _ ≤ Q v
  have hz : ∀ t : ℝ, |t| ≤ |κ| + 1 → ‖(v.1 + κ • (v.1 - v.2)) - t • (v.1 - v.2)‖ ^ 2 ≤ (2 + 2 * (|κ| + 1) ^ 2 / w) * Q v := by
    intro t ht
    have h1 := norm_sub_le (v.1 + κ • (v.1 - v.2)) (t • (v.1 - v.2))
    rw [norm_smul, Real.norm_eq_abs] at h1
    have h2 := pow_le_pow_left₀ (norm_nonneg _) h1 2
    have h3 : (|t| * ‖v.1 - v.2‖) ^ 2 ≤ (|κ| + 1) ^ 2 * ‖v.1 - v.2‖ ^ 2 := by
      rw [mul_pow]; exact mul_le_mul_of_nonneg_right (pow_le_pow_left₀ (abs_nonneg _) ht 2) (by positivity)
    have h4 : (2 + 2 * (|κ| + 1) ^ 2 / w) * Q v = 2 * Q v + 2 * (|κ| + 1) ^ 2 / w * ‖v.1 + κ • (v.1 - v.2)‖ ^ 2 + 2 * (|κ| + 1) ^ 2 * ‖v.1 - v.2‖ ^ 2 := by
      simp only [Q]; field_simp; ring
    have h5 : 0 ≤ 2 * (|κ| + 1) ^ 2 / w * ‖v.1 + κ • (v.1 - v.2)‖ ^ 2 := by positivity
    have h6 : 0 ≤ w * ‖v.1 - v.2‖ ^ 2 := by positivity
    rw [h4]; simp only [Q]
    nlinarith [sq_nonneg (‖v.1 + κ • (v.1 - v.2)‖ - |t| * ‖v.1 - v.2‖)]
  have b1 := hz κ (by linarith)
  have b2 := hz (κ + 1) ((abs_add_le _ _).trans (by simp))
  rw [show v.1 + κ • (v.1 - v.2) - κ • (v.1 - v.2) = v.1 by abel] at b1
  rw [show v.1 + κ • (v.1 - v.2) - (κ + 1) • (v.1 - v.2) = v.2 by module] at b2
  rw [one_div, inv_mul_le_iff₀ (by positivity), Prod.norm_def]
  rcases max_choice ‖v.1‖ ‖v.2‖ with h | h <;> rw [h] <;> assumption

/-- The two-step iteration with a cocoercive map converges. -/
lemma twostep_converges [ProperSpace E] {T : E → E} (hT : Continuous T) {θ : ℝ} (hco : ∀ x c, T c = c → θ * ‖x - T x‖ ^ 2 ≤ ⟪x - T x, x - c⟫)
    (hne : ∃ c, T c = c) (hα : |α - 1| < 1) (hβ : 0 < β) (h : β * (1 + |α - 1|) < 2 * θ * (2 - α) * (1 - |α - 1|)) (X : ℕ → E)
    (hX : ∀ n, X (n + 2) = (1 - α) • X n + (α - β) • X (n + 1) + β • T (X (n + 1))) : ∃ c, T c = c ∧ Tendsto X atTop (𝓝 c) := by
  obtain ⟨a, rfl⟩ : ∃ a, α = 1 + a := ⟨α - 1, by ring⟩
  rw [add_sub_cancel_left] at hα h
  rw [show (2 : ℝ) - (1 + a) = 1 - a by ring] at h
  obtain ⟨m, hm, hp, hdet⟩ := twist_weight hα hβ h
  have ha1 : 0 < 1 - a := by have := le_abs_self a; linarith
  have ha2 : 0 < 1 - a ^ 2 := by nlinarith [sq_abs a, abs_nonneg a]
  obtain ⟨ε, hε, hquad⟩ := quad_dominates (E := E) hp (mul_pos hm ha2) hdet
  set κ := a / (1 - a) with hκ
  set w := m / (1 - a) ^ 2 with hw
  have hwpos : 0 < w := by positivity
  let Q : E × E → ℝ := fun v => ‖v.1 + κ • (v.1 - v.2)‖ ^ 2 + w * ‖v.1 - v.2‖ ^ 2
  let S : E × E → E × E := fun v => ((1 - (1 + a)) • v.2 + (1 + a - β) • v.1 + β • T v.1, v.1)
  have hSc : Continuous S := by
    have := hT.comp (continuous_fst (X := E) (Y := E))
    have : Continuous fun v : E × E => T v.1 := this
    fun_prop
  have hk : 0 < 1 / (2 + 2 * (|κ| + 1) ^ 2 / w) := by positivity
  have hlow : ∀ v, 1 / (2 + 2 * (|κ| + 1) ^ 2 / w) * ‖v‖ ^ 2 ≤ Q v := fun v => twostep_coercive hwpos v
  have hdec : ∀ v c, S c = c → Q (S v - c) + ε / ((1 - a) ^ 2 * (3 + 2 * β ^ 2)) * ‖S v - v‖ ^ 2 ≤ Q (v - c) := by
    intro v c hc
    have e1 : c.2 = c.1 := (Prod.mk.inj hc).2.symm
    have e2 := (Prod.mk.inj hc).1
    have hfix : T c.1 = c.1 := by
      rw [e1] at e2
      have : β • (T c.1 - c.1) = 0 := by
        have h3 : (1 - (1 + a)) • c.1 + (1 + a - β) • c.1 + β • T c.1 = c.1 + β • (T c.1 - c.1) := by module
        rw [h3] at e2; exact add_eq_left.1 e2
      exact sub_eq_zero.1 ((smul_eq_zero.1 this).resolve_left hβ.ne')
    have hG := hco v.1 c.1 hfix
    obtain ⟨x, y⟩ := v
    obtain ⟨c, c'⟩ := c
    simp only at e1 hG
    subst e1
    set G := x - T x with hGdef
    have hTx : T x = x - G := by rw [hGdef]; abel
    have s1 : S (x, y) - (c', c') = (x - c' + (a • (x - y) - β • G), x - c') := by
      simp only [S, hTx, Prod.mk_sub_mk, Prod.mk.injEq]
      exact ⟨by module, trivial⟩
    have s2 : S (x, y) - (x, y) = (a • (x - y) - β • G, x - y) := by
      simp only [S, hTx, Prod.mk_sub_mk, Prod.mk.injEq]
      exact ⟨by module, trivial⟩
    rw [s1, s2]
    have q1 : Q (x - c' + (a • (x - y) - β • G), x - c') = ‖(x - c' + κ • (x - y)) - (β / (1 - a)) • G‖ ^ 2 + w * ‖a • (x - y) - β • G‖ ^ 2 := by
      have r1 : x - c' + (a • (x - y) - β • G) - (x - c') = a • (x - y) - β • G := by abel
      have r2 : x - c' + (a • (x - y) - β • G) + κ • (a • (x - y) - β • G) = (x - c' + κ • (x - y)) - (β / (1 - a)) • G := by
        have k1 : a + κ * a = κ := by rw [hκ]; field_simp; ring
        have k2 : β + κ * β = β / (1 - a) := by rw [hκ]; field_simp; ring
        calc _ = (x - c' + (a + κ * a) • (x - y)) - (β + κ * β) • G := by module
          _ = _ := by rw [k1, k2]
      simp only [Q, r1, r2]
    have q0 : Q ((x, y) - (c', c')) = ‖x - c' + κ • (x - y)‖ ^ 2 + w * ‖x - y‖ ^ 2 := by
      simp only [Q, Prod.mk_sub_mk, sub_sub_sub_cancel_right]
    rw [q1, q0]
    exact twostep_decrease ha1 hα hβ hε hκ hw (x - c') (x - y) G hG (hquad G (x - y))
  have hne' : ∃ v, S v = v := by
    obtain ⟨c, hc⟩ := hne
    exact ⟨(c, c), by simp only [S, hc, Prod.mk.injEq]; exact ⟨by module, trivial⟩⟩
  obtain ⟨c, hc, hlim⟩ := km_converges S hSc Q (by fun_prop) (by simp [Q]) hk (by positivity) hlow hdec hne' (fun n => (X (n + 1), X n)) (fun n => by
    simp only [S, hX])
  have e1 : c.2 = c.1 := (Prod.mk.inj hc).2.symm
  have e2 := (Prod.mk.inj hc).1
  refine ⟨c.1, ?_, ?_⟩
  · rw [e1] at e2
    have : β • (T c.1 - c.1) = 0 := by
      have h3 : (1 - (1 + a)) • c.1 + (1 + a - β) • c.1 + β • T c.1 = c.1 + β • (T c.1 - c.1) := by module
      rw [h3] at e2; exact add_eq_left.1 e2
    exact sub_eq_zero.1 ((smul_eq_zero.1 this).resolve_left hβ.ne')
  · rw [← e1]; exact (continuous_snd.tendsto c).comp hlim

/-- The fixed points of the proximal gradient map are the minimisers. -/
lemma ist_fixed_iff [FiniteDimensional ℝ E] (hF : F.Convex) {P : E → E} (hP : ∀ x, IsProx F 1 x (P x)) (c : E) :
    istMap A b P c = c ↔ (lsqObj A.matvec b F).IsMin c := by
  have key := pg_fixed_iff (φ := fun x => ‖A.matvec x - b‖ ^ 2 / 2) (F := F) lsq_convex hF one_pos (fun x => lsq_isGrad (A := A) (b := b) x) hP c
  rw [one_smul] at key; exact key

/-- C96: if `‖A‖² ≤ L` and `beta (1 + |alpha-1|) < (4-L)/2 (2-alpha) (1 - |alpha-1|)`, TwIST converges to a minimiser of `½‖A x - b‖² + g(x)` from every
starting point, whenever there is one.  For `alpha = 1` the condition is `beta < 2 - L/2`. -/
theorem C96_twist_converges [FiniteDimensional ℝ E] (hF : F.Convex) (hg : ProxExact g F) {L : ℝ} (hA : ∀ v, ‖A.matvec v‖ ^ 2 ≤ L * ‖v‖ ^ 2)
    (hα : |α - 1| < 1) (hβ : 0 < β) (h : β * (1 + |α - 1|) < (4 - L) / 2 * (2 - α) * (1 - |α - 1|)) (hsol : ∃ c, (lsqObj A.matvec b F).IsMin c)
    (eigs : ℝ × ℝ) (s : ℕ → TwistState E) (hs : ∀ n, TwIST g A b x0 (some (α, β)) eigs n rc = .ok (s n)) :
    ∃ c, (lsqObj A.matvec b F).IsMin c ∧ Tendsto (fun n => (s n).x) atTop (𝓝 c) := by
  obtain ⟨P, hP, hP'⟩ := proxExact_map hg one_pos
  have hiff : ∀ c, istMap A b P c = c ↔ (lsqObj A.matvec b F).IsMin c := ist_fixed_iff hF hP'
  have hPc : Continuous P := proxMap_continuous hF one_pos hP'
  have hTc : Continuous (istMap A b P) := by
    have e : (fun x => A.rmatvec (A.matvec x - b)) = fun x => (A.rmatvec ∘ₗ A.matvec) x - A.rmatvec b := by funext x; simp
    have hG : Continuous fun x => A.rmatvec (A.matvec x - b) := by
      rw [e]; exact (LinearMap.continuous_of_finiteDimensional (A.rmatvec ∘ₗ A.matvec)).sub continuous_const
    exact hPc.comp (continuous_id.sub hG)
  have : ProperSpace E := FiniteDimensional.proper_real E
  obtain ⟨c, hc, hlim⟩ := twostep_converges (α := α) (β := β) hTc (θ := 1 - L / 4) (fun x c hc => ist_cocoercive hF hP' hA hc) (hsol.imp fun c => (hiff c).2) hα hβ
    (by linarith) (fun n => (s n).x) fun n => by
      obtain ⟨p, h1, h2, h3⟩ := twist_succ (hs (n + 1)) (hs (n + 2))
      obtain ⟨p', h1', h2', h3'⟩ := twist_succ (hs n) (hs (n + 1))
      rw [hP] at h1
      cases h1
      rw [h2, h3']; rfl
  exact ⟨c, (hiff c).1 hc, hlim⟩

/-! ## The documented parameters -/

/-- With `alpha = None` or `beta = None` the parameters computed from the eigenvalues are used. -/
lemma twist_none {eigs p : ℝ × ℝ} (h : twistParams eigs.1 eigs.2 = .ok p) (n : ℕ) : TwIST g A b x0 none eigs n rc = TwIST g A b x0 (some p) eigs n rc := by
  simp only [TwIST, h, Bind.bind, Except.bind, Pure.pure, Except.pure]

/-- The documented `rho`. -/
noncomputable def twistRho (emax emin : ℝ) : ℝ := (1 - √(emin / emax)) / (1 + √(emin / emax))

lemma twistParams_ok {emax emin : ℝ} (h0 : 0 < emin) (h1 : 0 < emax) :
    twistParams emax emin = .ok (1 + twistRho emax emin ^ 2, 2 * (1 + twistRho emax emin ^ 2) / (emax + emin)) := by
  have h2 : ¬ emin / emax < 0 := not_lt.2 (by positivity)
  have h3 : emax + emin ≠ 0 := by positivity
  simp [twistParams, h1.ne', h2, h3, twistRho]

/-- `c` times the identity. -/
noncomputable def scaledId (E : Type) [NormedAddCommGroup E] [InnerProductSpace ℝ E] (c : ℝ) : LinOp E E where
  matvec := c • LinearMap.id
  rmatvec := c • LinearMap.id
  dot := fun x y => by simp [real_inner_smul_left, real_inner_smul_right]

/-! ### Upper eigenvalue below one: the documented `max(1, ·)` is missing -/

lemma growth_scalar {v : ℕ → ℝ} {a c : ℝ} (ha : 0 < a) (hc : 1 + a < c) (h0 : v 0 = 0) (h1 : v 1 = a) (h : ∀ n, v (n + 2) = c * v (n + 1) - a * v n) (n : ℕ) :
    a * (c - a) ^ n ≤ v (n + 1) ∧ 0 ≤ v n ∧ (c - a) * v n ≤ v (n + 1) := by
  induction n with
  | zero => simp [h0, h1, ha.le]
  | succ n ih =>
    obtain ⟨i1, i2, i3⟩ := ih
    have hr : 1 < c - a := by linarith
    have j1 : 0 ≤ v (n + 1) := le_trans (by positivity) i1
    have j2 : (c - a) * v (n + 1) ≤ v (n + 2) := by
      rw [h n]
      have : v n ≤ v (n + 1) := by nlinarith
      nlinarith
    refine ⟨?_, j1, j2⟩
    have : (c - a) * (a * (c - a) ^ n) ≤ (c - a) * v (n + 1) := mul_le_mul_of_nonneg_left i1 (by linarith)
    rw [pow_succ]; linarith

/-- C96, counterexample: the docstring takes `Λmax = max(1, λmax)`, but with `eigs = (λmax, λmin)` given the code uses `λmax` itself.  If
`λmin + λmax < 1`, with the indicator of `{0}` for `g` the iterates diverge for every operator, every `b` and every starting point but 0. -/
theorem C96_twist_eigs_refuted {ι : Type} [Fintype ι] {emin emax : ℝ} (h0 : 0 < emin) (h1 : emin < emax) (h2 : emin + emax < 1) (A : LinOp (Vec ι) D) (b : D)
    {x0 : Vec ι} (hx0 : x0 ≠ 0) :
    ∃ s : ℕ → TwistState (Vec ι), (∀ n, TwIST (Box (fun _ => some 0) (fun _ => some 0)) A b x0 none (emax, emin) n rc = .ok (s n)) ∧
      Tendsto (fun n => ‖(s n).x‖) atTop atTop := by
  have hP : ∀ x : Vec ι, (Box (fun _ : ι => some 0) (fun _ => some 0)).prox x 1 = .ok 0 := fun x => by
    have : boxProj (fun _ : ι => some 0) (fun _ => some 0) x = 0 := by
      ext i
      show min (max (x i) 0) 0 = 0
      exact min_eq_right (le_max_right _ _)
    simp [ProxOp.prox, Box, checkTau, this]
  have hp := twistParams_ok h0 (h0.trans h1)
  set ρ := twistRho emax emin with hρ
  have hκ0 : 0 < √(emin / emax) := Real.sqrt_pos.2 (div_pos h0 (h0.trans h1))
  have hκ1 : √(emin / emax) < 1 := by
    rw [Real.sqrt_lt' one_pos, one_pow, div_lt_one (h0.trans h1)]; exact h1
  have ha : 0 < ρ ^ 2 := by
    have : 0 < ρ := by rw [hρ, twistRho]; exact div_pos (by linarith) (by linarith)
    positivity
  have hc : 1 + ρ ^ 2 < 2 * (1 + ρ ^ 2) / (emax + emin) - (1 + ρ ^ 2) := by
    have : 2 * (1 + ρ ^ 2) < 2 * (1 + ρ ^ 2) / (emax + emin) := by
      rw [lt_div_iff₀ (by linarith)]; nlinarith
    linarith
  generalize 2 * (1 + ρ ^ 2) / (emax + emin) = β at *
  generalize hq : ρ ^ 2 = a at *
  obtain ⟨s, X, hs, X0, X1, X2, hsX⟩ := twist_traj (g := Box (fun _ => some 0) (fun _ => some 0)) (A := A) (b := b) (α := 1 + a) (β := β) (rc := rc)
    (P := fun _ => 0) hP (fun _ x => ⟨_, rfl⟩) (emax, emin) x0
  refine ⟨s, fun n => by rw [twist_none hp]; exact hs n, ?_⟩
  let pr : ℕ → ℝ × ℝ := fun n => n.rec (0, a) fun _ q => (q.2, (β - (1 + a)) * q.2 - a * q.1)
  have hv : ∀ n, (pr (n + 1)).1 = (pr n).2 := fun n => rfl
  have key : ∀ n, a * ((β - (1 + a)) - a) ^ n ≤ (pr (n + 1)).1 ∧ 0 ≤ (pr n).1 ∧ ((β - (1 + a)) - a) * (pr n).1 ≤ (pr (n + 1)).1 :=
    fun n => growth_scalar (v := fun n => (pr n).1) ha hc rfl rfl (fun n => rfl) n
  have hX : ∀ n, X (n + 1) = ((-1) ^ n * (pr n).1) • x0 ∧ X (n + 2) = ((-1) ^ (n + 1) * (pr (n + 1)).1) • x0 := by
    intro n
    induction n with
    | zero =>
      have e1 : X 1 = 0 := X1
      refine ⟨by simpa [pr] using e1, ?_⟩
      rw [X2 0, e1, X0]
      simp [pr, istMap]
    | succ n ih =>
      refine ⟨ih.2, ?_⟩
      rw [X2 (n + 1), ih.1, ih.2]
      have : (pr (n + 1 + 1)).1 = (β - (1 + a)) * (pr (n + 1)).1 - a * (pr n).1 := rfl
      rw [this]
      simp only [istMap, smul_zero, add_zero]
      module
  have hn : ∀ n, ‖(s (n + 1)).x‖ = (pr (n + 1)).1 * ‖x0‖ := fun n => by
    rw [hsX, (hX n).2, norm_smul, norm_mul, norm_pow, norm_neg, norm_one, one_pow, one_mul, Real.norm_of_nonneg (key (n + 1)).2.1]
  rw [← tendsto_add_atTop_iff_nat 1]
  simp only [hn]
  refine Tendsto.atTop_mul_const (norm_pos_iff.2 hx0) ?_
  exact tendsto_atTop_mono (fun n => (key n).1) ((tendsto_pow_atTop_atTop_of_one_lt (by linarith)).const_mul_atTop ha)

/-! ### Without `eigs`, the eigenvalues of `A` are taken for those of `AᴴA` -/

/-- C96, counterexample: without `eigs` the code takes the eigenvalues of `A`, not of `AᴴA`.  For `A = σ I` with `σ > 2` these are `σ`, and with `g = 0`
the error is multiplied by `1 - σ` in every iteration. -/
theorem C96_twist_default_refuted (hg : ∀ x, g.prox x 1 = .ok x) (hcall : rc = true → ∀ x, ∃ v, g.call x = .ok v) {σ : ℝ} (hσ : 2 < σ) (c : E) {x0 : E}
    (hx0 : x0 ≠ c) :
    ∃ s : ℕ → TwistState E, (∀ n, TwIST g (scaledId E σ) (σ • c) x0 none (σ, σ) n rc = .ok (s n)) ∧
      (∀ n, (s n).x - c = ((1 - σ) ^ n * (1 - σ ^ 2)) • (x0 - c)) ∧ Tendsto (fun n => ‖(s n).x - c‖) atTop atTop := by
  have hp := twistParams_ok (emin := σ) (emax := σ) (by linarith) (by linarith)
  have hr : twistRho σ σ = 0 := by rw [twistRho, div_self (by linarith)]; simp
  rw [hr, show (2 * (1 + (0 : ℝ) ^ 2) / (σ + σ)) = 1 / σ by field_simp; norm_num] at hp
  obtain ⟨s, X, hs, X0, X1, X2, hsX⟩ := twist_traj (g := g) (A := scaledId E σ) (b := σ • c) (α := 1 + 0 ^ 2) (β := 1 / σ) (rc := rc) (P := id) hg hcall (σ, σ) x0
  have hi : ∀ x, istMap (scaledId E σ) (σ • c) id x = x - (σ ^ 2) • (x - c) := fun x => by
    simp only [istMap, scaledId, id, LinearMap.smul_apply, LinearMap.id_apply]; module
  have he : ∀ n, X (n + 1) - c = ((1 - σ) ^ n * (1 - σ ^ 2)) • (x0 - c) := by
    intro n
    induction n with
    | zero => rw [X1, hi]; module
    | succ n ih =>
      have : X (n + 2) - c = (1 - σ) • (X (n + 1) - c) := by
        rw [X2 n, hi]
        have h3 : (1 / σ) * σ ^ 2 = σ := by field_simp
        calc _ = (X (n + 1) - c) - ((1 / σ) * σ ^ 2) • (X (n + 1) - c) := by module
          _ = _ := by rw [h3]; module
      rw [this, ih, smul_smul]; congr 1; ring
  refine ⟨s, fun n => by rw [twist_none hp]; exact hs n, fun n => by rw [hsX]; exact he n, ?_⟩
  simp only [hsX, he, norm_smul, norm_mul, norm_pow]
  refine Tendsto.atTop_mul_const (norm_pos_iff.2 (sub_ne_zero.2 hx0)) ?_
  have h1 : 1 < ‖1 - σ‖ := by rw [Real.norm_eq_abs, abs_of_neg (by linarith)]; linarith
  have h2 : 0 < ‖1 - σ ^ 2‖ := by rw [norm_pos_iff]; nlinarith
  exact Tendsto.atTop_mul_const h2 (tendsto_pow_atTop_atTop_of_one_lt h1)

/-! ### A three-cycle at the documented parameters -/

lemma clip_low {x : ℝ} (h : x ≤ 1) : min (max (x - 1 / 5 * (1 / 5 * x - -24 / 5)) 0) (24 / 25) = 0 := by
  rw [max_eq_right (by linarith)]; norm_num

lemma clip_high {x : ℝ} (h : 2 ≤ x) : min (max (x - 1 / 5 * (1 / 5 * x - -24 / 5)) 0) (24 / 25) = 24 / 25 :=
  min_eq_right (le_trans (by linarith) (le_max_left _ _))

/-- The scalar recursion approaches the three-cycle. -/
lemma cycle_scalar {X : ℕ → ℝ} (h0 : 11 / 6 ≤ X 0) (h0' : X 0 ≤ 46 / 25) (h1 : X 1 = min (max (X 0 - 1 / 5 * (1 / 5 * X 0 - -24 / 5)) 0) (24 / 25))
    (h : ∀ n, X (n + 2) = (1 - 13 / 9) * X n + (13 / 9 - 25 / 9) * X (n + 1) + 25 / 9 * min (max (X (n + 1) - 1 / 5 * (1 / 5 * X (n + 1) - -24 / 5)) 0) (24 / 25)) (k : ℕ) :
    X (3 * k + 2) ≤ -17 / 10 ∧ 2 < X (3 * k + 3) ∧ 1 / 2 < X (3 * k + 4) ∧ X (3 * k + 4) < 3 / 4 := by
  have b1 : X 1 = 24 / 25 * (X 0 - 1) := by
    rw [h1, max_eq_left (by linarith), min_eq_left (by linarith)]; ring
  have low : ∀ n, X (n + 1) ≤ 1 → X (n + 2) = -(4 / 9) * X n - 4 / 3 * X (n + 1) := fun n hn => by rw [h n, clip_low hn]; ring
  have high : ∀ n, 2 ≤ X (n + 1) → X (n + 2) = -(4 / 9) * X n - 4 / 3 * X (n + 1) + 8 / 3 := fun n hn => by rw [h n, clip_high hn]; ring
  have inv : ∀ k, (-(1 / 10) ≤ X (3 * k + 2) + 2208 / 1225 ∧ X (3 * k + 2) + 2208 / 1225 ≤ 1 / 10) ∧
      (-(1 / 30) ≤ X (3 * k + 3) - 2592 / 1225 + 2 / 3 * (X (3 * k + 2) + 2208 / 1225) ∧
        X (3 * k + 3) - 2592 / 1225 + 2 / 3 * (X (3 * k + 2) + 2208 / 1225) ≤ 1 / 30) := by
    intro k
    induction k with
    | zero =>
      have c2 := low 0 (by linarith)
      have c3 := low 1 (by simp only [Nat.reduceAdd]; linarith)
      simp only [Nat.reduceAdd, zero_add, mul_zero] at *
      refine ⟨⟨?_, ?_⟩, ?_, ?_⟩ <;> linarith
    | succ k ih =>
      obtain ⟨⟨i1, i2⟩, i3, i4⟩ := ih
      have c4 := high (3 * k + 2) (by show 2 ≤ X (3 * k + 3); linarith)
      change X (3 * k + 4) = -(4 / 9) * X (3 * k + 2) - 4 / 3 * X (3 * k + 3) + 8 / 3 at c4
      have c5 := low (3 * k + 3) (by show X (3 * k + 4) ≤ 1; linarith)
      change X (3 * k + 5) = -(4 / 9) * X (3 * k + 3) - 4 / 3 * X (3 * k + 4) at c5
      have c6 := low (3 * k + 4) (by show X (3 * k + 5) ≤ 1; linarith)
      change X (3 * k + 6) = -(4 / 9) * X (3 * k + 4) - 4 / 3 * X (3 * k + 5) at c6
      have e1 : 3 * (k + 1) + 2 = 3 * k + 5 := by ring
      have e2 : 3 * (k + 1) + 3 = 3 * k + 6 := by ring
      rw [e1, e2]
      refine ⟨⟨?_, ?_⟩, ?_, ?_⟩ <;> linarith
  obtain ⟨⟨i1, i2⟩, i3, i4⟩ := inv k
  have c4 := high (3 * k + 2) (by show 2 ≤ X (3 * k + 3); linarith)
  change X (3 * k + 4) = -(4 / 9) * X (3 * k + 2) - 4 / 3 * X (3 * k + 3) + 8 / 3 at c4
  refine ⟨?_, ?_, ?_, ?_⟩ <;> linarith

/-- C96, counterexample: `AᴴA = I/25`, so the documented parameters are those of `Λmax = 1`, `λmin = 1/25`: `alpha = 13/9`, `beta = 25/9`.  With `g` the
indicator of the box `[0, 24/25]` (any number of entries) the minimiser is 0, but from every starting point with entries in `[11/6, 46/25]` the
iterates run through three regions for ever. -/
theorem C96_twist_cycle_refuted {ι : Type} [Fintype ι] [Nonempty ι] {x0 : Vec ι} (hx0 : ∀ i, 11 / 6 ≤ x0 i ∧ x0 i ≤ 46 / 25) :
    (∀ v, (scaledId (Vec ι) (1 / 5)).rmatvec ((scaledId (Vec ι) (1 / 5)).matvec v) = (1 / 25 : ℝ) • v) ∧
    (lsqObj (scaledId (Vec ι) (1 / 5)).matvec (vmk fun _ => -24 / 5) (XFun.indicator (boxSet (fun _ => some 0) (fun _ => some (24 / 25))))).IsMin 0 ∧
    ∃ s : ℕ → TwistState (Vec ι),
      (∀ n, TwIST (Box (fun _ => some 0) (fun _ => some (24 / 25))) (scaledId (Vec ι) (1 / 5)) (vmk fun _ => -24 / 5) x0 none (1, 1 / 25) n rc = .ok (s n)) ∧
      (∀ k i, (s (3 * k + 1)).x i ≤ -17 / 10 ∧ 2 < (s (3 * k + 2)).x i ∧ 1 / 2 < (s (3 * k + 3)).x i ∧ (s (3 * k + 3)).x i < 3 / 4) ∧
      ¬ ∃ c, Tendsto (fun n => (s n).x) atTop (𝓝 c) := by
  have hb : ∀ (i : ι) a b, (fun _ : ι => some (0 : ℝ)) i = some a → (fun _ : ι => some (24 / 25 : ℝ)) i = some b → a ≤ b := by
    rintro i a b ⟨⟩ ⟨⟩; norm_num
  have hP : ∀ x : Vec ι, (Box (fun _ : ι => some 0) (fun _ => some (24 / 25))).prox x 1 = .ok (boxProj (fun _ => some 0) (fun _ => some (24 / 25)) x) := fun x => by
    simp [ProxOp.prox, Box, checkTau]
  have hPx : ∀ x : Vec ι, IsProx (XFun.indicator (boxSet (fun _ => some 0) (fun _ => some (24 / 25)))) 1 x (boxProj (fun _ => some 0) (fun _ => some (24 / 25)) x) := fun x => by
    obtain ⟨p, h1, h2⟩ := box_proxExact _ _ hb x 1 one_pos
    rw [hP] at h1; cases h1; exact h2
  have hi : ∀ (x : Vec ι) i, istMap (scaledId (Vec ι) (1 / 5)) (vmk fun _ => -24 / 5) (boxProj (fun _ => some 0) (fun _ => some (24 / 25))) x i =
      min (max (x i - 1 / 5 * (1 / 5 * x i - -24 / 5)) 0) (24 / 25) := fun x i => rfl
  refine ⟨fun v => ?_, (ist_fixed_iff (indicator_convex (boxSet_convex _ _)) hPx 0).1 ?_, ?_⟩
  · simp only [scaledId, LinearMap.smul_apply, LinearMap.id_apply, smul_smul]; norm_num
  · ext i
    rw [hi]; exact clip_low (by show (0 : ℝ) ≤ 1; norm_num)
  have hr : twistRho 1 (1 / 25) = 2 / 3 := by
    have : √(1 / 25 / 1 : ℝ) = 1 / 5 := by rw [show (1 / 25 / 1 : ℝ) = (1 / 5) ^ 2 by norm_num]; exact Real.sqrt_sq (by norm_num)
    rw [twistRho, this]; norm_num
  have hp := twistParams_ok (emin := 1 / 25) (emax := 1) (by norm_num) (by norm_num)
  rw [hr, show (1 + (2 / 3 : ℝ) ^ 2) = 13 / 9 by norm_num, show (2 * (13 / 9 : ℝ) / (1 + 1 / 25)) = 25 / 9 by norm_num] at hp
  obtain ⟨s, X, hs, X0, X1, X2, hsX⟩ := twist_traj (g := Box (fun _ => some 0) (fun _ => some (24 / 25))) (A := scaledId (Vec ι) (1 / 5)) (b := vmk fun _ => -24 / 5)
    (α := 13 / 9) (β := 25 / 9) (rc := rc) hP (fun _ x => ⟨_, rfl⟩) (1, 1 / 25) x0
  have key : ∀ k i, (s (3 * k + 1)).x i ≤ -17 / 10 ∧ 2 < (s (3 * k + 2)).x i ∧ 1 / 2 < (s (3 * k + 3)).x i ∧ (s (3 * k + 3)).x i < 3 / 4 := by
    intro k i
    simp only [hsX]
    refine cycle_scalar (X := fun n => X n i) ?_ ?_ ?_ ?_ k
    · show _ ≤ X 0 i; rw [X0]; exact (hx0 i).1
    · show X 0 i ≤ _; rw [X0]; exact (hx0 i).2
    · show X 1 i = _; rw [X1, hi, X0]
    · intro n
      show X (n + 2) i = _
      rw [X2 n, ← hi]
      rfl
  refine ⟨s, fun n => by rw [twist_none hp]; exact hs n, key, ?_⟩
  rintro ⟨c, hc⟩
  obtain ⟨i⟩ := ‹Nonempty ι›
  have hci : Tendsto (fun n => (s n).x i) atTop (𝓝 (c i)) := ((EuclideanSpace.proj (𝕜 := ℝ) i).continuous.tendsto c).comp hc
  have m1 : Tendsto (fun k : ℕ => 3 * k + 1) atTop atTop := tendsto_atTop_mono (fun k => by show k ≤ 3 * k + 1; omega) tendsto_id
  have m2 : Tendsto (fun k : ℕ => 3 * k + 2) atTop atTop := tendsto_atTop_mono (fun k => by show k ≤ 3 * k + 2; omega) tendsto_id
  have l1 := le_of_tendsto (hci.comp m1) (Eventually.of_forall fun k => (key k i).1)
  have l2 := ge_of_tendsto (hci.comp m2) (Eventually.of_forall fun k => (key k i).2.1.le)
  linarith

/-! ### The documented parameters are right for `g = 0` -/

/-- A symmetric map whose quadratic form is bounded by `m` is bounded by `m`. -/
lemma sym_bound {B : E →ₗ[ℝ] E} (hB : ∀ u v, ⟪B u, v⟫ = ⟪u, B v⟫) {m : ℝ} (hm : ∀ v, |⟪B v, v⟫| ≤ m * ‖v‖ ^ 2) (u : E) : ‖B u‖ ≤ m * ‖u‖ := by
  have pol : ∀ u v, ⟪B u, v⟫ ≤ m / 2 * (‖u‖ ^ 2 + ‖v‖ ^ 2) := fun u v => by
    have h1 := (abs_le.1 (hm (u + v))).2
    have h2 := (abs_le.1 (hm (u - v))).1
    have h3 := parallelogram_law_with_norm ℝ u v
    have h4 : ⟪B v, u⟫ = ⟪B u, v⟫ := by rw [hB, real_inner_comm]
    simp only [map_add, map_sub, inner_add_left, inner_add_right, inner_sub_left, inner_sub_right, h4] at h1 h2
    have h5 : ‖u + v‖ ^ 2 + ‖u - v‖ ^ 2 = 2 * (‖u‖ ^ 2 + ‖v‖ ^ 2) := h3
    have h6 : m * ‖u + v‖ ^ 2 + m * ‖u - v‖ ^ 2 = 2 * m * (‖u‖ ^ 2 + ‖v‖ ^ 2) := by rw [← mul_add, h5]; ring
    linarith
  by_cases h0 : B u = 0
  · rw [h0, norm_zero]
    rcases eq_or_ne u 0 with rfl | hu
    · simp
    · have h1 := (abs_nonneg _).trans (hm u)
      have h2 : 0 < ‖u‖ := norm_pos_iff.2 hu
      have : 0 ≤ m := nonneg_of_mul_nonneg_left h1 (by positivity)
      positivity
  · have hn : 0 < ‖B u‖ := norm_pos_iff.2 h0
    have hu : 0 < ‖u‖ := norm_pos_iff.2 fun h => h0 (by rw [h, map_zero])
    have h1 := pol u ((‖u‖ / ‖B u‖) • B u)
    rw [real_inner_smul_right, real_inner_self_eq_norm_sq, norm_smul, Real.norm_of_nonneg (by positivity), div_mul_cancel₀ _ hn.ne'] at h1
    have h2 : ‖u‖ / ‖B u‖ * ‖B u‖ ^ 2 = ‖u‖ * ‖B u‖ := by field_simp
    rw [h2] at h1
    nlinarith

/-- The critically damped two-step recursion decays like `n ρ^n`. -/
lemma twostep_linear {B : E →ₗ[ℝ] E} (hB : ∀ u v, ⟪B u, v⟫ = ⟪u, B v⟫) {ρ : ℝ} (hρ : 0 ≤ ρ) (hm : ∀ v, |⟪B v, v⟫| ≤ 2 * ρ * ‖v‖ ^ 2) {e : ℕ → E}
    (he : ∀ n, e (n + 2) = B (e (n + 1)) - ρ ^ 2 • e n) : ∃ C, 0 ≤ C ∧ ∀ n, ‖e (n + 1)‖ ≤ C * (n + 1) * ρ ^ n := by
  let En : ℕ → ℝ := fun k => ‖e (k + 1)‖ ^ 2 + ρ ^ 2 * ‖e k‖ ^ 2 - ⟪e (k + 1), B (e k)⟫
  have hE : ∀ k, En (k + 1) = ρ ^ 2 * En k := fun k => by
    simp only [En, he k]
    rw [norm_sub_sq_real, norm_smul, Real.norm_of_nonneg (by positivity), inner_sub_left, real_inner_self_eq_norm_sq, real_inner_smul_right, real_inner_smul_left,
      hB (e (k + 1)) (e k), ← hB (e k) (e (k + 1)), real_inner_comm (e (k + 1)) (B (e k))]
    ring
  have hE' : ∀ k, En k = ρ ^ (2 * k) * En 0 := fun k => by
    induction k with
    | zero => simp
    | succ k ih => rw [hE, ih]; ring
  have hlow : ∀ k, ‖e (k + 1) - (1 / 2 : ℝ) • B (e k)‖ ^ 2 ≤ En k := fun k => by
    have h1 := sym_bound hB hm (e k)
    have h2 := pow_le_pow_left₀ (norm_nonneg _) h1 2
    rw [norm_sub_sq_real, norm_smul, real_inner_smul_right]
    simp only [En]
    norm_num
    rw [mul_pow, mul_pow] at h2
    nlinarith
  have hE0 : 0 ≤ En 0 := (sq_nonneg _).trans (hlow 0)
  have step : ∀ k, ‖e (k + 1)‖ ≤ ρ * ‖e k‖ + ρ ^ k * √(En 0) := fun k => by
    have h1 := sym_bound hB hm (e k)
    have h2 : ‖e (k + 1) - (1 / 2 : ℝ) • B (e k)‖ ≤ ρ ^ k * √(En 0) := by
      refine abs_le_of_sq_le_sq' ?_ (by positivity) |>.2
      rw [mul_pow, Real.sq_sqrt hE0, ← pow_mul, mul_comm k 2, ← hE' k]
      exact hlow k
    calc ‖e (k + 1)‖ = ‖(e (k + 1) - (1 / 2 : ℝ) • B (e k)) + (1 / 2 : ℝ) • B (e k)‖ := by rw [sub_add_cancel]
      _ ≤ ‖e (k + 1) - (1 / 2 : ℝ) • B (e k)‖ + ‖(1 / 2 : ℝ) • B (e k)‖ := norm_add_le _ _
      _ ≤ ρ * ‖e k‖ + ρ ^ k * √(En 0) := by
        rw [norm_smul, Real.norm_of_nonneg (by norm_num)]; linarith
  refine ⟨‖e 1‖ + √(En 0), by positivity, fun n => ?_⟩
  have : ∀ n : ℕ, ‖e (n + 1)‖ ≤ ρ ^ n * (‖e 1‖ + n * √(En 0)) := fun n => by
    induction n with
    | zero => simp
    | succ n ih =>
      refine (step (n + 1)).trans ?_
      have := mul_le_mul_of_nonneg_left ih hρ
      refine (add_le_add_left this _).trans (le_of_eq ?_)
      push_cast; ring
  refine (this n).trans ?_
  have h1 : 0 ≤ ρ ^ n := by positivity
  have h2 : ‖e 1‖ + n * √(En 0) ≤ (‖e 1‖ + √(En 0)) * (n + 1) := by nlinarith [norm_nonneg (e 1), Real.sqrt_nonneg (En 0), mul_nonneg (Nat.cast_nonneg (α := ℝ) n) (norm_nonneg (e 1))]
  calc _ ≤ ρ ^ n * ((‖e 1‖ + √(En 0)) * (n + 1)) := mul_le_mul_of_nonneg_left h2 h1
    _ = _ := by ring

lemma twistRho_bounds {emax emin : ℝ} (h0 : 0 < emin) (h1 : emin ≤ emax) : 0 ≤ twistRho emax emin ∧ twistRho emax emin < 1 := by
  have hκ0 : 0 < √(emin / emax) := Real.sqrt_pos.2 (div_pos h0 (h0.trans_le h1))
  have hκ1 : √(emin / emax) ≤ 1 := Real.sqrt_le_one.2 ((div_le_one (h0.trans_le h1)).2 h1)
  rw [twistRho]
  exact ⟨div_nonneg (by linarith) (by linarith), by rw [div_lt_one (by linarith)]; linarith⟩

/-- `alpha` and `beta` place the spectrum of `alpha - beta AᴴA` in `[-2ρ, 2ρ]`. -/
lemma twistRho_ends {emax emin : ℝ} (h0 : 0 < emin) (h1 : emin ≤ emax) :
    (1 + twistRho emax emin ^ 2) - 2 * (1 + twistRho emax emin ^ 2) / (emax + emin) * emin = 2 * twistRho emax emin ∧
    (1 + twistRho emax emin ^ 2) - 2 * (1 + twistRho emax emin ^ 2) / (emax + emin) * emax = -(2 * twistRho emax emin) := by
  have hm := h0.trans_le h1
  set t := √(emin / emax) with ht
  have ht0 : 0 < t := Real.sqrt_pos.2 (div_pos h0 hm)
  have e : emin = t ^ 2 * emax := by rw [ht, Real.sq_sqrt (by positivity)]; field_simp
  have hr : twistRho emax emin = (1 - t) / (1 + t) := rfl
  rw [hr]
  clear_value t
  subst e
  have : emax + t ^ 2 * emax ≠ 0 := by positivity
  have h3 : (1 + t ^ 2) ≠ 0 := by positivity
  constructor <;> (field_simp; ring)

/-- C96: with `g = 0` and the extreme eigenvalues of `AᴴA` given (any bounds on its spectrum), TwIST with the documented parameters converges to the
least-squares solution, the error decaying like `n ρ^n` with the documented `ρ = (1-√κ)/(1+√κ) < 1`. -/
theorem C96_twist_linear_rate (hg : ∀ x, g.prox x 1 = .ok x) (hcall : rc = true → ∀ x, ∃ v, g.call x = .ok v) {emin emax : ℝ} (h0 : 0 < emin) (h1 : emin ≤ emax)
    (hA : ∀ v, emin * ‖v‖ ^ 2 ≤ ‖A.matvec v‖ ^ 2 ∧ ‖A.matvec v‖ ^ 2 ≤ emax * ‖v‖ ^ 2) {c : E} (hc : A.rmatvec (A.matvec c - b) = 0) :
    ∃ s : ℕ → TwistState E, (∀ n, TwIST g A b x0 none (emax, emin) n rc = .ok (s n)) ∧
      (∃ C, 0 ≤ C ∧ ∀ n, ‖(s n).x - c‖ ≤ C * (n + 1) * ((1 - √(emin / emax)) / (1 + √(emin / emax))) ^ n) ∧ Tendsto (fun n => (s n).x) atTop (𝓝 c) := by
  have hp := twistParams_ok h0 (h0.trans_le h1)
  obtain ⟨hρ0, hρ1⟩ := twistRho_bounds h0 h1
  obtain ⟨z1, z2⟩ := twistRho_ends h0 h1
  have hβ : 0 < 2 * (1 + twistRho emax emin ^ 2) / (emax + emin) := div_pos (by positivity) (by linarith)
  change ∃ s : ℕ → TwistState E, _ ∧ (∃ C, 0 ≤ C ∧ ∀ n, ‖(s n).x - c‖ ≤ C * (n + 1) * twistRho emax emin ^ n) ∧ _
  generalize 2 * (1 + twistRho emax emin ^ 2) / (emax + emin) = β at *
  generalize twistRho emax emin = ρ at *
  obtain ⟨s, X, hs, X0, X1, X2, hsX⟩ := twist_traj (g := g) (A := A) (b := b) (α := 1 + ρ ^ 2) (β := β) (rc := rc) (P := id) hg hcall (emax, emin) x0
  let B : E →ₗ[ℝ] E := (1 + ρ ^ 2) • LinearMap.id - β • (A.rmatvec ∘ₗ A.matvec)
  have hBv : ∀ v, B v = (1 + ρ ^ 2) • v - β • A.rmatvec (A.matvec v) := fun v => rfl
  have hB : ∀ u v, ⟪B u, v⟫ = ⟪u, B v⟫ := fun u v => by
    have h3 : ⟪A.rmatvec (A.matvec u), v⟫ = ⟪u, A.rmatvec (A.matvec v)⟫ := by rw [← A.dot, real_inner_comm, ← A.dot, real_inner_comm]
    rw [hBv, hBv, inner_sub_left, inner_sub_right, real_inner_smul_left, real_inner_smul_right, real_inner_smul_left, real_inner_smul_right, h3]
  have hm : ∀ v, |⟪B v, v⟫| ≤ 2 * ρ * ‖v‖ ^ 2 := fun v => by
    have h3 : ⟪B v, v⟫ = (1 + ρ ^ 2) * ‖v‖ ^ 2 - β * ‖A.matvec v‖ ^ 2 := by
      rw [hBv, inner_sub_left, real_inner_smul_left, real_inner_smul_left, real_inner_self_eq_norm_sq, real_inner_comm, ← A.dot, real_inner_self_eq_norm_sq]
    have h4 := mul_le_mul_of_nonneg_left (hA v).1 hβ.le
    have h5 := mul_le_mul_of_nonneg_left (hA v).2 hβ.le
    have h6 : ((1 + ρ ^ 2) - β * emin) * ‖v‖ ^ 2 = 2 * ρ * ‖v‖ ^ 2 := by rw [z1]
    have h7 : ((1 + ρ ^ 2) - β * emax) * ‖v‖ ^ 2 = -(2 * ρ) * ‖v‖ ^ 2 := by rw [z2]
    rw [h3, abs_le]
    constructor <;> nlinarith
  have hi : ∀ x, istMap A b id x = x - A.rmatvec (A.matvec (x - c)) := fun x => by
    have : A.rmatvec (A.matvec x - b) = A.rmatvec (A.matvec (x - c)) := by
      rw [← sub_zero (A.rmatvec (A.matvec x - b)), ← hc, ← map_sub, map_sub A.matvec]; congr 1; abel
    simp only [istMap, id, this]
  obtain ⟨C, hC, hrate⟩ := twostep_linear hB hρ0 hm (e := fun n => X n - c) fun n => by
    show X (n + 2) - c = B (X (n + 1) - c) - ρ ^ 2 • (X n - c)
    rw [X2 n, hi, hBv]
    module
  have hrate' : ∀ n, ‖(s n).x - c‖ ≤ C * (n + 1) * ρ ^ n := fun n => by rw [hsX]; exact hrate n
  refine ⟨s, fun n => by rw [twist_none hp]; exact hs n, ⟨C, hC, hrate'⟩, ?_⟩
  rw [tendsto_iff_norm_sub_tendsto_zero]
  have l1 := tendsto_self_mul_const_pow_of_lt_one hρ0 hρ1
  have l2 := tendsto_pow_atTop_nhds_zero_of_lt_one hρ0 hρ1
  have l3 : Tendsto (fun n : ℕ => C * (n + 1) * ρ ^ n) atTop (𝓝 0) := by
    have := (l1.add l2).const_mul C
    rw [add_zero, mul_zero] at this
    refine this.congr fun n => ?_
    ring
  exact squeeze_zero (fun n => norm_nonneg _) hrate' l3

/-! ## Instances -/

/-- Instance: `alpha = 1.1`, `beta = 1`, `AᴴA = I/25` meets the condition of `C96_twist_converges`, and TwIST converges for the box. -/
example (x0 : Vec (Fin 3)) : ∃ (s : ℕ → TwistState (Vec (Fin 3))) (c : Vec (Fin 3)), (∀ n, TwIST (Box (fun _ => some 0) (fun _ => some (24 / 25))) (scaledId (Vec (Fin 3)) (1 / 5)) (vmk fun _ => -24 / 5) x0
    (some (11 / 10, 1)) (1, 1 / 25) n false = .ok (s n)) ∧ Tendsto (fun n => (s n).x) atTop (𝓝 c) := by
  have hb : ∀ (i : Fin 3) a b, (fun _ : Fin 3 => some (0 : ℝ)) i = some a → (fun _ : Fin 3 => some (24 / 25 : ℝ)) i = some b → a ≤ b := by
    rintro i a b ⟨⟩ ⟨⟩; norm_num
  obtain ⟨s, X, hs, -⟩ := twist_traj (g := Box (fun _ => some 0) (fun _ => some (24 / 25))) (A := scaledId (Vec (Fin 3)) (1 / 5)) (b := vmk fun _ => -24 / 5)
    (α := 11 / 10) (β := 1) (rc := false) (P := boxProj (fun _ => some 0) (fun _ => some (24 / 25))) (fun x => by simp [ProxOp.prox, Box, checkTau]) (by simp) (1, 1 / 25) x0
  obtain ⟨c, -, hc⟩ := C96_twist_converges (indicator_convex (boxSet_convex _ _)) (box_proxExact _ _ hb) (L := 1 / 25) (fun v => by
      simp only [scaledId, LinearMap.smul_apply, LinearMap.id_apply, norm_smul, mul_pow]; norm_num)
    (by rw [abs_lt]; norm_num) one_pos (by rw [abs_of_pos (by norm_num)]; norm_num)
    ⟨0, (C96_twist_cycle_refuted (rc := false) (x0 := vmk fun _ => 11 / 6) fun i => ⟨le_rfl, by show (11 / 6 : ℝ) ≤ _; norm_num⟩).2.1⟩ (1, 1 / 25) s hs
  exact ⟨s, c, hs, hc⟩

/-- Instance: with unbounded `Box` (`g = 0`) and `A = I/5`, `eigs = (1, 1/25)`. -/
example (x0 c : Vec (Fin 3)) : ∃ s : ℕ → TwistState (Vec (Fin 3)),
    (∀ n, TwIST (Box (fun _ => none) (fun _ => none)) (scaledId (Vec (Fin 3)) (1 / 5)) ((1 / 5 : ℝ) • c) x0 none (1, 1 / 25) n true = .ok (s n)) ∧
    Tendsto (fun n => (s n).x) atTop (𝓝 c) := by
  obtain ⟨s, h1, -, h2⟩ := C96_twist_linear_rate (g := Box (fun _ : Fin 3 => none) (fun _ => none)) (A := scaledId (Vec (Fin 3)) (1 / 5)) (b := (1 / 5 : ℝ) • c) (x0 := x0)
    (rc := true) (emin := 1 / 25) (emax := 1) (c := c) (fun x => by simp [ProxOp.prox, Box, checkTau, boxProj, boxClip, maxLower, minUpper]) (fun _ x => ⟨_, rfl⟩) (by norm_num) (by norm_num)
    (fun v => by
      simp only [scaledId, LinearMap.smul_apply, LinearMap.id_apply, norm_smul, mul_pow]
      have := sq_nonneg ‖v‖
      constructor
      · norm_num
      · norm_num; linarith)
    (by simp [scaledId])
  exact ⟨s, h1, h2⟩

/-- Instance: `A = 4 I` in three unknowns, `g = 0`, no `eigs`. -/
example : ∃ s : ℕ → TwistState (Vec (Fin 3)),
    (∀ n, TwIST (Box (fun _ => none) (fun _ => none)) (scaledId (Vec (Fin 3)) 4) ((4 : ℝ) • 0) (vmk fun _ => 1) none (4, 4) n false = .ok (s n)) ∧
    Tendsto (fun n => ‖(s n).x - 0‖) atTop atTop := by
  obtain ⟨s, h1, -, h2⟩ := C96_twist_default_refuted (g := Box (fun _ : Fin 3 => none) (fun _ => none)) (rc := false) (σ := 4)
    (fun x => by simp [ProxOp.prox, Box, checkTau, boxProj, boxClip, maxLower, minUpper]) (by simp) (by norm_num) 0 (x0 := vmk fun _ => 1)
    (fun h => by have := congrArg (fun v : Vec (Fin 3) => v 0) h; simp at this)
  exact ⟨s, h1, h2⟩

/-- Instance: `AᴴA` with eigenvalues `1/4` and `1/25`. -/
example (A : LinOp (Vec (Fin 3)) D) (b : D) : ∃ s : ℕ → TwistState (Vec (Fin 3)),
    (∀ n, TwIST (Box (fun _ => some 0) (fun _ => some 0)) A b (vmk fun _ => 1) none (1 / 4, 1 / 25) n true = .ok (s n)) ∧ Tendsto (fun n => ‖(s n).x‖) atTop atTop :=
  C96_twist_eigs_refuted (by norm_num) (by norm_num) (by norm_num) A b (fun h => by have := congrArg (fun v : Vec (Fin 3) => v 0) h; simp at this)

end Verif
