import Verif.Model.TwISTCall
import Verif.Props.TwistConv

/-! # C96: the optional arguments of `TwIST` -/

namespace Verif

variable {E D : Type} [NormedAddCommGroup E] [InnerProductSpace ℝ E] [NormedAddCommGroup D] [InnerProductSpace ℝ D]

/-- C96: with `alpha` and `beta` both given, the eigenvalues play no role: neither those given nor those of `A` change the result. -/
theorem C96_both_parameters (g : ProxOp E) (A : LinOp E D) (b : D) (x0 : E) (α β : ℝ) (eigs eigs' : Option (ℝ × ℝ)) (sm lm sm' lm' : ℝ) (n : ℕ) (rc : Bool) :
    TwISTCall g A b x0 (some α) (some β) eigs sm lm n rc = TwISTCall g A b x0 (some α) (some β) eigs' sm' lm' n rc := by
  simp only [TwISTCall, TwIST]

/-- C96: a single parameter is ignored: `TwIST(..., alpha=a)` and `TwIST(..., beta=b)` are the call without either. -/
theorem C96_one_parameter_ignored (g : ProxOp E) (A : LinOp E D) (b : D) (x0 : E) (eigs : Option (ℝ × ℝ)) (sm lm : ℝ) (n : ℕ) (rc : Bool) (v : ℝ) :
    TwISTCall g A b x0 (some v) none eigs sm lm n rc = TwISTCall g A b x0 none none eigs sm lm n rc ∧
    TwISTCall g A b x0 none (some v) eigs sm lm n rc = TwISTCall g A b x0 none none eigs sm lm n rc := ⟨rfl, rfl⟩

/-- C96 fails for one parameter: the call with `alpha=1` and no `beta` is not the call with `alpha=1` and some `beta`. -/
theorem C96_one_parameter_refuted {g : ProxOp E} (hg : ∀ x, g.prox x 1 = .ok x) {x0 : E} (hx0 : x0 ≠ 0) (sm lm : ℝ) :
    (∃ s, TwISTCall g (scaledId E 1) 0 x0 (some 1) none (some (1, 1 / 4)) sm lm 1 false = .ok s ∧ s.x = (-1 / 9 : ℝ) • x0 ∧ s.x ≠ 0) ∧
    ∀ β, ∃ s, TwISTCall g (scaledId E 1) 0 x0 (some 1) (some β) (some (1, 1 / 4)) sm lm 1 false = .ok s ∧ s.x = 0 := by
  have hi : ∀ x, istMap (scaledId E 1) 0 id x = 0 := fun x => by
    simp [istMap, scaledId]
  have key : ∀ (α β : ℝ) (e : ℝ × ℝ), ∃ s, TwIST g (scaledId E 1) 0 x0 (some (α, β)) e 1 false = .ok s ∧ s.x = (1 - α) • x0 := fun α β e => by
    obtain ⟨s, X, hs, X0, X1, X2, hsX⟩ := twist_traj (g := g) (A := scaledId E 1) (b := 0) (α := α) (β := β) (rc := false) (P := id) hg (by simp) e x0
    refine ⟨s 1, hs 1, ?_⟩
    rw [hsX, X2 0, X0, zero_add, X1, hi]
    simp only [hi, smul_zero, add_zero]
  constructor
  · have hp := twistParams_ok (emin := 1 / 4) (emax := 1) (by norm_num) (by norm_num)
    have hq : √(1 / 4 / 1 : ℝ) = 1 / 2 := by rw [show (1 / 4 / 1 : ℝ) = (1 / 2) ^ 2 by norm_num]; exact Real.sqrt_sq (by norm_num)
    have hr : twistRho 1 (1 / 4) = 1 / 3 := by rw [twistRho, hq]; norm_num
    rw [hr] at hp
    obtain ⟨s, hs, hx⟩ := key (1 + (1 / 3) ^ 2) (2 * (1 + (1 / 3) ^ 2) / (1 + 1 / 4)) (1, 1 / 4)
    have hx' : s.x = (-1 / 9 : ℝ) • x0 := by rw [hx]; norm_num
    refine ⟨s, ?_, hx', ?_⟩
    · simp only [TwISTCall]; rw [twist_none hp]; exact hs
    · rw [hx']; exact smul_ne_zero (by norm_num) hx0
  · intro β
    obtain ⟨s, hs, hx⟩ := key 1 β (1, 1 / 4)
    exact ⟨s, hs, by rw [hx]; simp⟩

/-- C96: without `eigs` the larger eigenvalue is clamped from below at `1`: an operator whose eigenvalues are at most `1` in size is treated as if its largest eigenvalue were `1`. -/
theorem C96_eigs_clamped (g : ProxOp E) (A : LinOp E D) (b : D) (x0 : E) (sm lm : ℝ) (h : lm ≤ 1) (n : ℕ) (rc : Bool) :
    TwISTCall g A b x0 none none none sm lm n rc = TwISTCall g A b x0 none none (some (1, sm)) sm lm n rc := by
  simp only [TwISTCall, max_eq_left h]

/-- Instance of the refutation on vectors of length three, with `g` the box without bounds. -/
example : ∃ s : TwistState (Vec (Fin 3)), TwISTCall (Box (fun _ => none) (fun _ => none)) (scaledId _ 1) 0 (vmk fun _ => 1) (some 1) none (some (1, 1 / 4)) 1 1 1 false = .ok s ∧ s.x ≠ 0 := by
  obtain ⟨⟨s, h, -, hx⟩, -⟩ := C96_one_parameter_refuted (g := Box (fun _ : Fin 3 => none) (fun _ => none)) (x0 := vmk fun _ => 1)
    (fun x => by simp [ProxOp.prox, Box, checkTau, boxProj, boxClip, maxLower, minUpper]) (fun h => by have := congrArg (fun v : Vec (Fin 3) => v 0) h; simp at this) 1 1
  exact ⟨s, h, hx⟩

end Verif
