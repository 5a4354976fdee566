import Verif.Model.Proximal

/-! # Specification for the adaptive inner solver of SR3: when its test is met -/

namespace Verif

variable {E : Type} [NormedAddCommGroup E] [InnerProductSpace ℝ E] {ι : Type} [Fintype ι]

/-- The sparse variable `_lsqr` compares from pass to pass. -/
noncomputable def lsqrZ (Reg : LinOp E (Vec ι)) (t : ℝ) (zold : Vec ι) (xs : ℕ → E) : ℕ → Vec ι
  | 0 => zold
  | k + 1 => vmk fun i => npsign (Reg.matvec (xs (k + 1)) i) * max (|Reg.matvec (xs (k + 1)) i| - t) 0

/-- The stopping test of `_lsqr` after pass `k + 1`. -/
def LsqrStops (z : ℕ → Vec ι) (k : ℕ) : Prop := ‖z (k + 1) - z k‖ < 1e-6 * ‖z k‖

end Verif
