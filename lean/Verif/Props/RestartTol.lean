import Verif.Props.Tolerance
import Verif.Props.Restart

/-! # C111: continuing a run that has a tolerance -/

open scoped RealInnerProductSpace

namespace Verif

variable {E : Type} [NormedAddCommGroup E] [InnerProductSpace ℝ E]

/-- C111 for `ProximalPoint` with tolerances: two calls, the second from what the first returned, make the iterations of one run without a tolerance, as many as the two calls made together. -/
theorem C111_proximal_point_tol (f : ProxOp E) (x0 : E) (τ : ℝ) (n m : ℕ) (tol tol' : Option ℝ) (s t : PPState E) (hs : ProximalPoint f x0 τ n tol = .ok s)
    (ht : ProximalPoint f s.x τ m tol' = .ok t) : ∃ r, ProximalPoint f x0 τ (s.log.length + t.log.length) none = .ok r ∧ r.x = t.x ∧ r.log = s.log ++ t.log := by
  obtain ⟨s', hs', hx, hl⟩ := C75_proximalpoint_truncates f x0 τ tol n s hs
  obtain ⟨t', ht', hx', hl'⟩ := C75_proximalpoint_truncates f s.x τ tol' m t ht
  have h := C111_proximal_point_partial f x0 τ s.log.length t.log.length
  rw [hs', py_ok_bind, hx, ht', py_ok_bind, hx', hl, hl'] at h
  cases hr : ProximalPoint f x0 τ (s.log.length + t.log.length) none with
  | error e => rw [hr] at h; cases h
  | ok r =>
    rw [hr] at h
    injection h with h
    injection h with h1 h2
    exact ⟨r, rfl, h1, h2⟩

/-- C111 for `ProximalGradient` with a given step, without acceleration, and tolerances. -/
theorem C111_proximal_gradient_tol (f g : ProxOp E) (x0 : E) (a : PGArgs) (τ : ℝ) (epsg' : StepSpec) (tol' : Option ℝ) (n m : ℕ) (hn : 0 < n) (hm : 0 < m) (hτ : a.tau = some τ)
    (hb : a.backtracking = false) (hacc : a.acceleration = .none) (s t : PGState E) (hs : ProximalGradient f g x0 { a with niter := n } = .ok s)
    (he : ∀ j < m, epsg'.at j = a.epsg.at (s.log.length + j)) (ht : ProximalGradient f g s.x { a with niter := m, epsg := epsg', tol := tol' } = .ok t) :
    ∃ r, ProximalGradient f g x0 { a with niter := s.log.length + t.log.length, tol := none } = .ok r ∧ r.x = t.x ∧ r.log = s.log ++ t.log := by
  obtain ⟨s', hs', hx, hl⟩ := (C75_proximalgradient f g x0 { a with niter := n } hn).1 s hs
  obtain ⟨t', ht', hx', hl'⟩ := (C75_proximalgradient f g s.x { a with niter := m, epsg := epsg', tol := tol' } hm).1 t ht
  have ls := (C57_proximalgradient f g x0 a n s hs).2.1 hn
  have cb := C57_proximalgradient f g s.x { a with epsg := epsg', tol := tol' } m t ht
  have lt := cb.2.1 hm
  have h := C111_proximal_gradient_partial f g x0 { a with tol := none } τ epsg' s.log.length t.log.length ls lt hτ hb hacc rfl
    fun j hj => he j (lt_of_lt_of_le hj cb.1)
  simp only at hs' ht' h
  rw [hs', py_ok_bind, hx, ht', py_ok_bind, hx', hl, hl'] at h
  cases hr : ProximalGradient f g x0 { a with niter := s.log.length + t.log.length, tol := none } with
  | error e => rw [hr] at h; cases h
  | ok r =>
    rw [hr] at h
    injection h with h
    injection h with h1 h2
    exact ⟨r, rfl, h1, h2⟩

/-- C111 fails with a tolerance as to the number of iterations: `ProximalPoint` has forgotten the last value, so that a run which its tolerance has stopped makes at least two more iterations when it is
called again with the same tolerance (at most one), while a longer first call would have made none. -/
theorem C111_tolerance_refuted (f : ProxOp E) (x0 : E) (τ : ℝ) {tol : ℝ} (htol : tol ≤ 1) (n m k : ℕ) (hm : 2 ≤ m) (s t : PPState E) (hs : ProximalPoint f x0 τ n (some tol) = .ok s)
    (hstop : s.log.length < n) (ht : ProximalPoint f s.x τ m (some tol) = .ok t) : 2 ≤ t.log.length ∧ ProximalPoint f x0 τ (n + k) (some tol) = .ok s := by
  constructor
  · by_contra hc
    push Not at hc
    rcases C57_proximalpoint_early f s.x τ (some tol) m t ht (by omega) with ⟨-, t', v, h1, -, h2⟩ | ⟨q, p, h1, -⟩
    · injection h1 with h1
      subst h1
      exact absurd h2 (not_lt.2 htol)
    · omega
  · have key : ∀ n i (s0 s : PPState E), forRange (ProximalPoint.body f τ (some tol)) n i s0 = .ok s → s.log.length < s0.log.length + n →
        forRange (ProximalPoint.body f τ (some tol)) (n + k) i s0 = .ok s := by
      intro n
      induction n with
      | zero =>
        intro i s0 s h hl
        simp only [forRange] at h
        cases h
        omega
      | succ n ih =>
        intro i s0 s h hl
        rw [show n + 1 + k = (n + k) + 1 by omega]
        simp only [forRange] at h ⊢
        cases hb : ProximalPoint.body f τ (some tol) i s0 with
        | error e => rw [hb] at h; cases h
        | ok q =>
          obtain ⟨s1, b⟩ := q
          rw [hb] at h
          cases b with
          | true => exact h
          | false =>
            simp only [Bool.false_eq_true, if_false] at h ⊢
            refine ih _ _ _ h ?_
            have := (cb_pp_body hb).1
            rw [this, List.length_append]
            simp only [List.length_singleton]
            omega
    exact key n 0 _ s hs (by simpa using hstop)

/-- A constant function: the first call stops after two of its five iterations. -/
example (f : ProxOp ℝ) (hp : ∀ x, f.prox x 1 = .ok x) (hv : ∀ x, f.call x = .ok (.num 1)) : ∃ s, ProximalPoint f 3 1 5 (some (1 / 2)) = .ok s ∧ s.log.length < 5 := by
  refine ⟨⟨3, some 1, [3, 3]⟩, ?_, by simp⟩
  simp [ProximalPoint, forRange, ProximalPoint.body, hp, hv, pyRatio, CallVal.toReal, Bind.bind, Except.bind, Pure.pure, Except.pure]
  norm_num

end Verif
