import Verif.Model.ComplexMatrix

/-!
# `SingularValuePenalty` and `Nuclear` with an array `sigma` on complex matrices

`np.linalg.svd` and `np.linalg.eigvalsh` are parameters.  The singular values are real, so the penalty gets a real array.
-/

namespace Verif

variable {ι κ ρ : Type} [Fintype ι] [Fintype κ] [Fintype ρ]

/-- `X.T @ X` for a complex matrix: transposed without conjugation (SingularValuePenalty.py:50, Nuclear.py:65). -/
noncomputable def plainGram (x : CVec (ι × κ)) : Matrix κ κ ℂ := fun a b => ∑ i, x (i, a) * x (i, b)

/-- `np.sqrt(eigs)` after the negative eigenvalues have been set to zero (SingularValuePenalty.py:50-52, Nuclear.py:65-67). -/
noncomputable def rootEigs (eigvalsh : Matrix κ κ ℂ → κ → ℝ) (x : CVec (ι × κ)) : κ → ℝ :=
  fun k => √(if eigvalsh (plainGram x) k < 0 then 0 else eigvalsh (plainGram x) k)

/-- `SingularValuePenalty` (SingularValuePenalty.py:43-59) on complex matrices: the penalty's `prox` applied to the singular values. -/
noncomputable def SingularValuePenaltyCx (svd : CVec (ι × κ) → SVDC ι κ ρ) (eigvalsh : Matrix κ κ ℂ → κ → ℝ) (penCall : Vec κ → Py CallVal)
    (pen : ProxOp (Vec ρ)) : ProxOp (CVec (ι × κ)) where
  call := fun x => penCall (vmk (rootEigs eigvalsh x))
  prox? := some fun x τ => checkTau τ (do
    let d := svd x
    let t ← pen.prox (vmk d.s) τ
    pure (reconC d.u (fun k => t k) d.vh))
  proxdual? := none
  grad? := none
  hasgrad := false
  sigmame := 1

/-- `Nuclear` (Nuclear.py:58-80) with an array `sigma`, for complex `M × N` matrices.  `U * Sth` needs as many values as there are singular values. -/
noncomputable def NuclearWCx {M N r : ℕ} (svd : CVec (Fin M × Fin N) → SVDC (Fin M) (Fin N) (Fin r)) (eigvalsh : Matrix (Fin N) (Fin N) ℂ → Fin N → ℝ) (sigma : List ℝ) :
    ProxOp (CVec (Fin M × Fin N)) where
  call := fun x => do
    let t ← npBroadcast (· * ·) sigma.reverse (List.ofFn (rootEigs eigvalsh x))
    pure (.num t.sum)
  prox? := some fun x τ => checkTau τ (do
    let d := svd x
    let sg := if 1 < sigma.length then sigma.take r else sigma
    let t ← npBroadcast softScalar (List.ofFn d.s) (sg.map (τ * ·))
    if t.length = r then pure (reconC d.u (fun k => t.getD k 0) d.vh) else .error .valueError)
  proxdual? := none
  grad? := none
  hasgrad := false
  sigmame := 1

end Verif
