import Verif.Model.ProxOperator
import Verif.Model.Proximal
import Mathlib.Analysis.SpecialFunctions.Log.Basic
import Mathlib.Analysis.SpecialFunctions.Exp
import Mathlib.Analysis.SpecialFunctions.Pow.Real
import Mathlib.Analysis.SpecialFunctions.Trigonometric.Inverse

/-! # Model of the non-convex penalties of `pyproximal/proximal` (real arrays)

The constructors that validate their arguments are modelled as computations returning the operator object. -/

open scoped RealInnerProductSpace

namespace Verif

variable {ι : Type} [Fintype ι]

open Classical in
/-- `_hardthreshold` (proximal/L0.py:15-40). -/
noncomputable def hardthreshold (x : Vec ι) (thresh : ℝ) : Vec ι := vmk fun i => if |x i| ≤ thresh then 0 else x i

open Classical in
/-- `L0` (proximal/L0.py:86-111) with a constant `sigma`; `__call__` counts the non-zeros. -/
noncomputable def L0 (σ : ℝ) : ProxOp (Vec ι) where
  call := fun x => .ok (.num ((Finset.univ.filter fun i => |x i| > 0).card : ℝ))
  prox? := some fun x τ => checkTau τ (.ok (hardthreshold x (τ * σ)))
  proxdual? := none
  grad? := none
  hasgrad := false
  sigmame := 1

/-- `SCAD.elementwise` on one entry (proximal/SCAD.py:66-77): three masked assignments to an array of zeros. -/
noncomputable def scadElem (σ a x : ℝ) : ℝ :=
  if |x| ≤ σ then σ * |x|
  else if |x| ≤ a * σ then (-(x ^ 2) + 2 * a * σ * |x| - σ ^ 2) / (2 * (a - 1))
  else (a + 1) * σ ^ 2 / 2

/-- `SCAD.prox` on one entry (proximal/SCAD.py:80-90).  In the second branch `a - 1 - tau` vanishes only for `tau = a - 1`,
when no entry reaches the branch. -/
noncomputable def scadProx (σ a τ x : ℝ) : ℝ :=
  let first := σ * (a - 1 - τ + τ * a) / (a - 1)
  if |x| ≤ first then npsign x * max 0 (|x| - σ * τ)
  else if |x| ≤ a * σ then ((a - 1) * x - npsign x * a * σ * τ) / (a - 1 - τ)
  else x

/-- `SCAD` (proximal/SCAD.py:52-90), including the checks of the constructor. -/
noncomputable def SCAD (σ a : ℝ) : Py (ProxOp (Vec ι)) :=
  if σ ≤ 0 then .error .valueError
  else if a ≤ 2 then .error .valueError
  else .ok {
    call := fun x => .ok (.num (∑ i, scadElem σ a (x i)))
    prox? := some fun x τ => checkTau τ (.ok (vmk fun i => scadProx σ a τ (x i)))
    proxdual? := none
    grad? := none
    hasgrad := false
    sigmame := 1 }

/-- `QuadraticEnvelopeCard.elementwise` on one entry (proximal/QuadraticEnvelope.py:84-85). -/
noncomputable def qecElem (μ x : ℝ) : ℝ := μ - 0.5 * (max 0 (√(2 * μ) - |x|)) ^ 2

/-- `QuadraticEnvelopeCard.prox` on one entry (proximal/QuadraticEnvelope.py:88-95). -/
noncomputable def qecProx (μ τ x : ℝ) : ℝ :=
  (if |x| < √(2 * μ) then (if τ ≥ 1 then 0 else max 0 ((|x| - τ * √(2 * μ)) / (1 - τ))) else |x|) * npsign x

/-- `QuadraticEnvelopeCard` (proximal/QuadraticEnvelope.py:77-95).  For a negative `mu` numpy's square root is NaN: the value is NaN, and `prox` selects no index
and returns its input, as `qecProx` does with `√` of a negative number being 0. -/
noncomputable def QuadraticEnvelopeCard (μ : ℝ) : ProxOp (Vec ι) where
  call := fun x => if μ < 0 then .error .nanResult else .ok (.num (∑ i, qecElem μ (x i)))
  prox? := some fun x τ => checkTau τ (.ok (vmk fun i => qecProx μ τ (x i)))
  proxdual? := none
  grad? := none
  hasgrad := false
  sigmame := 1

/-- `RelaxedMumfordShah` (proximal/RelaxedMS.py:72-107) with constant `sigma` and `kappa`; `_l2(x, alpha)` is
`x / (1 + 2 alpha)` (proximal/RelaxedMS.py:14-38).  `kappa / sigma` is a division of Python floats.
A negative `sigma` with `1 + 2 tau sigma = 0` raises `ZeroDivisionError` in `_l2`; the model stands for the other values. -/
noncomputable def RelaxedMS (σ κ : ℝ) : ProxOp (Vec ι) where
  call := fun x => .ok (.num (min (σ * ‖x‖ ^ 2) κ))
  prox? := some fun x τ => checkTau τ (if σ = 0 then .error .zeroDivisionError else .ok (vmk fun i =>
    if |x i| ≤ √(κ / σ * (1 + 2 * τ * σ)) then 1 / (1 + 2 * (τ * σ)) * x i else x i))
  proxdual? := none
  grad? := none
  hasgrad := false
  sigmame := 1

/-- `Log.elementwise` on one entry (proximal/Log.py:87-88), `gamma > 0`. -/
noncomputable def logElem (σ γ x : ℝ) : ℝ := σ / Real.log (γ + 1) * Real.log (γ * |x| + 1)

/-- `Log.prox` on one entry (proximal/Log.py:91-104), `gamma > 0`; `np.argmin` takes the first minimum. -/
noncomputable def logProx (σ γ τ x : ℝ) : ℝ :=
  let k := τ * σ / Real.log (γ + 1)
  let b := γ * |x| - 1
  let disc := b ^ 2 - 4 * γ * (k * γ - |x|)
  (if disc ≥ 0 then
    let r := (b + √disc) / (2 * γ)
    let val := fun z => τ * logElem σ γ z + (z - |x|) ^ 2 / 2
    if val 0 ≤ val r then 0 else r
  else 0) * npsign x

/-- `Log` (proximal/Log.py:73-104).  For `gamma = 0` (accepted by the constructor) the value is NaN, every discriminant is
NaN, no index is selected and `prox` returns zeros. -/
noncomputable def Log (σ γ : ℝ) : Py (ProxOp (Vec ι)) :=
  if σ < 0 then .error .valueError
  else if γ < 0 then .error .valueError
  else .ok {
    call := fun x => if γ = 0 then .error .nanResult else .ok (.num (∑ i, logElem σ γ (x i)))
    prox? := some fun x τ => checkTau τ (.ok (vmk fun i => if γ = 0 then 0 else logProx σ γ τ (x i)))
    proxdual? := none
    grad? := none
    hasgrad := false
    sigmame := 1 }

/-- `Log1.prox` on one real entry (proximal/Log.py:164-190): the assignment for `x < -thresh` comes last and wins when
both masks hold. -/
noncomputable def log1Prox (σ δ τ x : ℝ) : ℝ :=
  let tau1 := σ * τ
  let thresh := √(2 * tau1) - δ
  if x < -thresh then 0.5 * (x + δ - √(|x - δ| ^ 2 - 2 * tau1))
  else if x > thresh then 0.5 * (x - δ + √(|x + δ| ^ 2 - 2 * tau1))
  else 0

open Classical in
/-- `Log1` (proximal/Log.py:148-190).  For `sigma < 0` the threshold is NaN and no entry is selected; `log 0` is `-inf`,
reported as `nanResult`. -/
noncomputable def Log1 (σ δ : ℝ) : Py (ProxOp (Vec ι)) :=
  if δ < 0 then .error .valueError
  else .ok {
    call := fun x => if ∃ i, |x i| + δ = 0 then .error .nanResult else .ok (.num (∑ i, Real.log (|x i| + δ)))
    prox? := some fun x τ => checkTau τ (.ok (if σ < 0 then 0 else vmk fun i => log1Prox σ δ τ (x i)))
    proxdual? := none
    grad? := none
    hasgrad := false
    sigmame := 1 }

/-- `ETP.elementwise` on one entry (proximal/ETP.py:65-70). -/
noncomputable def etpElem (σ γ x : ℝ) : ℝ := σ / (1 - Real.exp (-γ)) * (1 - Real.exp (-γ * |x|))

/-- `ETP.prox` on one entry (proximal/ETP.py:73-91); `lambertw` is the principal branch of scipy's function. -/
noncomputable def etpProx (lambertw : ℝ → ℝ) (σ γ τ x : ℝ) : ℝ :=
  let k := τ * σ / (1 - Real.exp (-γ))
  let tmp := Real.exp (-|x| * γ) * k * γ ^ 2
  if tmp ≤ Real.exp (-1) then
    let stat := npsign x * lambertw (-tmp) / γ + x
    if τ * etpElem σ γ stat + (stat - x) ^ 2 / 2 < x ^ 2 / 2 then stat else 0
  else 0

/-- `ETP` (proximal/ETP.py:51-91). -/
noncomputable def ETP (lambertw : ℝ → ℝ) (σ γ : ℝ) : Py (ProxOp (Vec ι)) :=
  if σ < 0 then .error .valueError
  else if γ ≤ 0 then .error .valueError
  else .ok {
    call := fun x => .ok (.num (∑ i, etpElem σ γ (x i)))
    prox? := some fun x τ => checkTau τ (.ok (vmk fun i => etpProx lambertw σ γ τ (x i)))
    proxdual? := none
    grad? := none
    hasgrad := false
    sigmame := 1 }

/-- `Geman.elementwise` on one entry (proximal/Geman.py:62-63). -/
noncomputable def gemanElem (σ γ x : ℝ) : ℝ := σ * |x| / (|x| + γ)

/-- `Geman._find_local_minima` on one entry (proximal/Geman.py:84-90): `none` when the index is not selected. -/
noncomputable def gemanLocalMin (b c d : ℝ) : Option ℝ :=
  let f := -((c - b ^ 2 / 3) ^ 3) / 27
  let g := (2 * b ^ 3 - 9 * b * c + 27 * d) / 27
  if g ^ 2 / 4 - f ≤ 0 then
    let sqrtf := √f
    let k := Real.arccos (-(g / (2 * sqrtf)))
    some (2 * sqrtf ^ ((1 : ℝ) / 3) * Real.cos (k / 3) - b / 3)
  else none

/-- `Geman.prox` on one entry (proximal/Geman.py:66-78). -/
noncomputable def gemanProx (σ γ τ x : ℝ) : ℝ :=
  let b := 2 * γ - |x|
  let c := γ ^ 2 - 2 * γ * |x|
  let d := γ * σ * τ - γ ^ 2 * |x|
  match gemanLocalMin b c d with
  | none => 0
  | some r => if τ * gemanElem σ γ r + (r - |x|) ^ 2 / 2 < |x| ^ 2 / 2 then npsign x * r else 0

/-- `Geman` (proximal/Geman.py:48-90). -/
noncomputable def Geman (σ γ : ℝ) : Py (ProxOp (Vec ι)) :=
  if σ < 0 then .error .valueError
  else if γ ≤ 0 then .error .valueError
  else .ok {
    call := fun x => .ok (.num (∑ i, gemanElem σ γ (x i)))
    prox? := some fun x τ => checkTau τ (.ok (vmk fun i => gemanProx σ γ τ (x i)))
    proxdual? := none
    grad? := none
    hasgrad := false
    sigmame := 1 }

end Verif
