import Verif.Model.L2

/-! # C20: repeated calls of `Quadratic.prox` on one object -/

open scoped RealInnerProductSpace

namespace Verif

variable {E : Type} [NormedAddCommGroup E] [InnerProductSpace ℝ E]

/-- The results of a sequence of calls `prox(x, tau)` on one object whose `x0` is the given one. -/
noncomputable def quadCalls (ext : QuadExt E) (d : QuadData E) (niter : ℕ) (warm : Bool) : Option E → List (E × ℝ) → List (Py E)
  | _, [] => []
  | x0, c :: cs => (Quadratic.prox ext d niter warm x0 c.1 c.2).2 :: quadCalls ext d niter warm (Quadratic.prox ext d niter warm x0 c.1 c.2).1 cs

/-- C20: with `warm=False`, with an explicit operator and without an operator, every call of any sequence of calls (failing ones included) returns what a new object returns. -/
theorem C20_quadratic_calls (ext : QuadExt E) (d : QuadData E) (niter : ℕ) (warm : Bool) (h : warm = false ∨ ∀ Op explicit b, d = .op Op explicit b → explicit = true) (x0 : Option E)
    (cs : List (E × ℝ)) : quadCalls ext d niter warm x0 cs = cs.map fun c => (Quadratic.prox ext d niter warm x0 c.1 c.2).2 := by
  have key : ∀ y0, (warm = false → y0 = x0) → quadCalls ext d niter warm y0 cs = cs.map fun c => (Quadratic.prox ext d niter warm x0 c.1 c.2).2 := by
    induction cs with
    | nil => intro y0 _; rfl
    | cons c cs ih =>
      intro y0 hy
      rw [quadCalls, List.map_cons]
      congr 1
      · rcases h with h | h
        · rw [hy h]
        · unfold Quadratic.prox
          by_cases hc : c.2 ≤ 0
          · rw [if_pos hc, if_pos hc]
          · rw [if_neg hc, if_neg hc]
            cases d with
            | op Op explicit b => simp only [h Op explicit b rfl, if_true]
            | bOnly b => rfl
            | nothing => rfl
      · refine ih _ fun hw => ?_
        unfold Quadratic.prox
        subst hw
        by_cases hc : c.2 ≤ 0
        · rw [if_pos hc]; exact hy rfl
        · rw [if_neg hc]
          cases d <;> exact hy rfl
  exact key x0 fun _ => rfl

/-- C20: with `warm=True` and an operator that is not explicit, the inner solver starts from the result of the last call that returned; calls that fail are not noticed by later ones. -/
theorem C20_quadratic_warm_calls (ext : QuadExt E) (Op : LinOp E E) (b : Option E) (niter : ℕ) (x0 : Option E) (x : E) (τ : ℝ) (cs : List (E × ℝ)) :
    (0 < τ → quadCalls ext (.op Op false b) niter true x0 ((x, τ) :: cs) =
      .ok (ext.lsqr (LinearMap.id + τ • Op.matvec) (x - τ • quadB b) niter x0) ::
        quadCalls ext (.op Op false b) niter true (some (ext.lsqr (LinearMap.id + τ • Op.matvec) (x - τ • quadB b) niter x0)) cs) ∧
    (τ ≤ 0 → quadCalls ext (.op Op false b) niter true x0 ((x, τ) :: cs) = .error .valueError :: quadCalls ext (.op Op false b) niter true x0 cs) := by
  constructor
  · intro hτ
    rw [quadCalls]
    simp only [Quadratic.prox, if_neg (not_le.2 hτ), Bool.false_eq_true, if_false, if_true]
  · intro hτ
    rw [quadCalls]
    simp only [Quadratic.prox, if_pos hτ]


/-- A sequence with a failing call in between. -/
example (ext : QuadExt ℝ) (Op : LinOp ℝ ℝ) (b : Option ℝ) : quadCalls ext (.op Op true b) 10 true none [(1, 1), (2, 0), (1, 1)] =
    [.ok (ext.div (LinearMap.id + (1 : ℝ) • Op.matvec) (1 - (1 : ℝ) • quadB b)), .error .valueError, .ok (ext.div (LinearMap.id + (1 : ℝ) • Op.matvec) (1 - (1 : ℝ) • quadB b))] := by
  rw [C20_quadratic_calls ext _ 10 true (.inr fun _ _ _ h => by injection h with _ h2 _; exact h2.symm)]
  simp [Quadratic.prox, show ¬ (1 : ℝ) ≤ 0 by norm_num]

end Verif
