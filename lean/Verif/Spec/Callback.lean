import Verif.Model.Py

/-! # Specification vocabulary for callbacks -/

namespace Verif

/-- The callback of a solver is called once per iteration, with the point of that iteration.  `run n` is the call of the solver with at most `n` iterations, `calls r` the arguments
the callback was called with during the run that ended with `r`, in order, and `out r` the point returned.  For every run that returns:
there is at least one call (if an iteration is allowed) and there are at most `niter` calls; the `k`-th call receives what a run of `k + 1` iterations returns; and a run limited to
as many iterations as there were calls returns the same. -/
def CallbackOk {S A : Type} (run : ℕ → Py S) (calls : S → List A) (out : S → A) : Prop :=
  ∀ niter r, run niter = .ok r →
    (calls r).length ≤ niter ∧ (0 < niter → 0 < (calls r).length) ∧
    (∀ k < (calls r).length, ∃ t, run (k + 1) = .ok t ∧ (calls r)[k]? = some (out t)) ∧
    (0 < niter → run (calls r).length = .ok r)

/-- The solver has no early exit: exactly `niter` iterations. -/
def NeverEarly {S A : Type} (run : ℕ → Py S) (calls : S → List A) : Prop := ∀ niter r, run niter = .ok r → (calls r).length = niter

/-- The solver leaves the loop early only when `test i prev last` holds, where `i` is the number of the last iteration (counted from 0), `last` the state after it and `prev` the
state after the iteration before (`none` if there was none). -/
def EarlyOnlyIf {S A : Type} (run : ℕ → Py S) (calls : S → List A) (test : ℕ → Option S → S → Prop) : Prop :=
  ∀ niter r, run niter = .ok r → (calls r).length < niter →
    ((calls r).length = 1 ∧ test 0 none r) ∨ ∃ m q, (calls r).length = m + 2 ∧ run (m + 1) = .ok q ∧ test (m + 1) (some q) r

end Verif
