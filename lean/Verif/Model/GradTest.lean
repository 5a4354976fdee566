import Verif.Model.Palm

/-! # Gradient tests (utils/gradtest.py) -/

namespace Verif

/-- A complex array (real arrays are those with zero imaginary parts). -/
abbrev CVec (ι : Type) [Fintype ι] := EuclideanSpace ℂ ι

/-- Keyword arguments of the gradient tests.  `verb` only prints and is left out, as is the random generation of `x` when none is given (`x` is then the generated array). -/
structure GradTestArgs where
  δ : ℝ
  rtol : ℝ
  atol : ℝ
  raiseerror : Bool

/-- The default tolerances (gradtest.py:14-16, 131-133). -/
noncomputable def gradTestDefaults : GradTestArgs := ⟨1e-6, 1e-6, 1e-21, true⟩

open Classical in
/-- Acceptance (gradtest.py:109-126, 237-256): `isclose(grad_diff, 0, rtol, atol)` is `|grad_diff - 0| <= atol + rtol * |0|`; with `delta = 0` the quotient is NaN, which is
close to nothing. -/
noncomputable def gradVerdict (a : GradTestArgs) (f fδ g : ℝ) : Py Bool :=
  let gradDelta := (fδ - f) / |a.δ|
  let gradDiff := gradDelta - g
  let passed : Bool := decide (a.δ ≠ 0 ∧ |gradDiff - 0| ≤ a.atol + a.rtol * |0|)
  if !passed && a.raiseerror then .error .assertionError else .ok passed

/-- `delta1` (gradtest.py:98-100). -/
noncomputable def delta1 (a : GradTestArgs) (imag : Bool) : ℂ := if imag then a.δ * Complex.I else a.δ

open Classical in
/-- `x[i] = v` (gradtest.py:103): numpy drops the imaginary part (with a warning) when `x` has a real dtype. -/
noncomputable def storeAt {ι : Type} [Fintype ι] (realDtype : Bool) (x : CVec ι) (i : ι) (v : ℂ) : CVec ι :=
  WithLp.toLp 2 (Function.update x.ofLp i (if realDtype then (v.re : ℂ) else v))

/-- `grad.real if r_or_i == 0 else grad.imag` (gradtest.py:111). -/
noncomputable def gradPart (imag : Bool) (g : ℂ) : ℝ := if imag then g.im else g.re

/-- `gradtest_proximal` (gradtest.py:9-126).  The random draws `iqx` and `r_or_i` are the arguments `i` and `imag`; `n` is the length of `x`.  Returned: the outcome and the contents
of the array passed as `x` afterwards. -/
noncomputable def gradtestProximal {ι : Type} [Fintype ι] (Op : ProxOp (CVec ι)) (realDtype : Bool) (a : GradTestArgs) (x : CVec ι) (i : ι) (imag : Bool) : Py Bool × CVec ι :=
  match Op.call x with
  | .error e => (.error e, x)
  | .ok f =>
    match Op.grad x with
    | .error e => (.error e, x)
    | .ok g =>
      let x' := storeAt realDtype x i (x i + delta1 a imag)
      match Op.call x' with
      | .error e => (.error e, x')
      | .ok fδ => (gradVerdict a f.toReal fδ.toReal (gradPart imag (g i)), x')

/-- The random draw of `gradtest_bilinear`: the block and the entry to perturb. -/
inductive BilDraw (ι κ μ : Type)
  | x (i : ι × κ)
  | y (i : κ × μ)

open Classical in
/-- `v[i] = v[i] + delta` for a real array. -/
noncomputable def bumpAt {ι : Type} [Fintype ι] (v : Vec ι) (i : ι) (δ : ℝ) : Vec ι := vmk (Function.update v.ofLp i (v i + δ))

section bil
variable {ι κ μ : Type} [Fintype ι] [Fintype κ] [Fintype μ] {D : Type} [NormedAddCommGroup D] [InnerProductSpace ℝ D]

/-- `gradtest_bilinear` (gradtest.py:129-256) for a real `LowRankFactorizedMatrix` with contiguous blocks and `complexflag=False` (complex data are in `Model/ComplexBilinear`).  `x` and `y` are views of the stored blocks; the
first evaluation replaces the stored `x` by a copy (bilinear.py:156-164), so that perturbing `x` is seen by the array that was stored before the test and not by
the object, while perturbing `y` changes the stored block.  Returned: the outcome, the array that was stored as `x` before the test, and the state of the object afterwards. -/
noncomputable def gradtestBilinear (H : LowRank ι κ μ D) (s : LowRankState ι κ μ) (a : GradTestArgs) (d : BilDraw ι κ μ) : Py Bool × Vec (ι × κ) × LowRankState ι κ μ :=
  let r := H.call s s.x s.y
  let s1 := r.2
  let gx := H.gradx s1 s.x
  let gy := H.grady s1 s.y
  match d with
  | .x i =>
    let x' := bumpAt s.x i a.δ
    let r' := H.call s1 x' s.y
    (gradVerdict a r.1 r'.1 (gx i), x', r'.2)
  | .y i =>
    let y' := bumpAt s.y i a.δ
    let r' := H.call (LowRank.updatey s1 y') s.x y'
    (gradVerdict a r.1 r'.1 (gy i), s.x, r'.2)

end bil

end Verif
