import Verif.Model.Complex
import Verif.Model.NonConvex

/-!
# Complex arrays: the penalties on moduli, the box and the half-space

The values computed when the arrays are complex.  `np.sign` of a complex number is `z / |z|` from numpy 2.0 on (`npSign2`); before, it is the sign of the real part, or of the
imaginary part if the real part is zero (`npSign1`).  The project asks for `numpy >= 1.21.0` (pyproject.toml:33), so that the operators below take the function in use as the
parameter `sg`.  Comparisons `<`, `<=`, `>=` of complex numbers are lexicographic, and `float(z)` drops the imaginary part.
-/

namespace Verif

variable {ι κ : Type} [Fintype ι] [Fintype κ]

/-- `np.sign` on a complex number, numpy 2.0 and later. -/
noncomputable def npSign2 (z : ℂ) : ℂ := if z = 0 then 0 else z / (‖z‖ : ℂ)

/-- `np.sign` on a complex number, numpy 1.x. -/
noncomputable def npSign1 (z : ℂ) : ℂ := if z.re ≠ 0 then (npsign z.re : ℂ) else (npsign z.im : ℂ)

/-- Lexicographic `a < b` on complex numbers, as numpy compares them. -/
def lexLt (a b : ℂ) : Prop := a.re < b.re ∨ (a.re = b.re ∧ a.im < b.im)

/-- `SCAD.elementwise` (proximal/SCAD.py:66-77) on one complex entry: `x ** 2` is the square of the number, not of its modulus. -/
noncomputable def scadElemC (σ a : ℝ) (z : ℂ) : ℂ :=
  if ‖z‖ ≤ σ then ((σ * ‖z‖ : ℝ) : ℂ)
  else if ‖z‖ ≤ a * σ then (-(z ^ 2) + ((2 * a * σ * ‖z‖ : ℝ) : ℂ) - ((σ ^ 2 : ℝ) : ℂ)) / ((2 * (a - 1) : ℝ) : ℂ)
  else (((a + 1) * σ ^ 2 / 2 : ℝ) : ℂ)

/-- `SCAD.prox` (proximal/SCAD.py:80-90) on one complex entry. -/
noncomputable def scadProxC (sg : ℂ → ℂ) (σ a τ : ℝ) (z : ℂ) : ℂ :=
  let first := σ * (a - 1 - τ + τ * a) / (a - 1)
  if ‖z‖ ≤ first then sg z * ((max 0 (‖z‖ - σ * τ) : ℝ) : ℂ)
  else if ‖z‖ ≤ a * σ then (((a - 1 : ℝ) : ℂ) * z - sg z * ((a * σ * τ : ℝ) : ℂ)) / ((a - 1 - τ : ℝ) : ℂ)
  else z

/-- `SCAD` (proximal/SCAD.py:52-90) on complex arrays. -/
noncomputable def SCADCx (sg : ℂ → ℂ) (σ a : ℝ) : Py (ProxOp (CVec ι)) :=
  if σ ≤ 0 then .error .valueError
  else if a ≤ 2 then .error .valueError
  else .ok {
    call := fun x => .ok (.num (∑ i, scadElemC σ a (x i)).re)
    prox? := some fun x τ => checkTau τ (.ok (cmk fun i => scadProxC sg σ a τ (x i)))
    proxdual? := none
    grad? := none
    hasgrad := false
    sigmame := 1 }

/-- `QuadraticEnvelopeCard.prox` (proximal/QuadraticEnvelope.py:88-95) on one complex entry. -/
noncomputable def qecProxC (sg : ℂ → ℂ) (μ τ : ℝ) (z : ℂ) : ℂ :=
  ((if ‖z‖ < √(2 * μ) then (if τ ≥ 1 then 0 else max 0 ((‖z‖ - τ * √(2 * μ)) / (1 - τ))) else ‖z‖ : ℝ) : ℂ) * sg z

/-- `QuadraticEnvelopeCard` (proximal/QuadraticEnvelope.py:77-95) on complex arrays. -/
noncomputable def QuadraticEnvelopeCardCx (sg : ℂ → ℂ) (μ : ℝ) : ProxOp (CVec ι) where
  call := fun x => if μ < 0 then .error .nanResult else .ok (.num (∑ i, (μ - 0.5 * (max 0 (√(2 * μ) - ‖x i‖)) ^ 2)))
  prox? := some fun x τ => checkTau τ (.ok (cmk fun i => qecProxC sg μ τ (x i)))
  proxdual? := none
  grad? := none
  hasgrad := false
  sigmame := 1

/-- `Log.prox` (proximal/Log.py:91-104) on one complex entry, `gamma > 0`. -/
noncomputable def logProxC (sg : ℂ → ℂ) (σ γ τ : ℝ) (z : ℂ) : ℂ :=
  let k := τ * σ / Real.log (γ + 1)
  let b := γ * ‖z‖ - 1
  let disc := b ^ 2 - 4 * γ * (k * γ - ‖z‖)
  ((if disc ≥ 0 then
    let r := (b + √disc) / (2 * γ)
    let val := fun y => τ * logElem σ γ y + (y - ‖z‖) ^ 2 / 2
    if val 0 ≤ val r then 0 else r
  else 0 : ℝ) : ℂ) * sg z

/-- `Log` (proximal/Log.py:73-104) on complex arrays; for `gamma = 0` see `Log` in `Model/NonConvex`. -/
noncomputable def LogCx (sg : ℂ → ℂ) (σ γ : ℝ) : Py (ProxOp (CVec ι)) :=
  if σ < 0 then .error .valueError
  else if γ < 0 then .error .valueError
  else .ok {
    call := fun x => if γ = 0 then .error .nanResult else .ok (.num (∑ i, σ / Real.log (γ + 1) * Real.log (γ * ‖x i‖ + 1)))
    prox? := some fun x τ => checkTau τ (.ok (cmk fun i => if γ = 0 then 0 else logProxC sg σ γ τ (x i)))
    proxdual? := none
    grad? := none
    hasgrad := false
    sigmame := 1 }

/-- `Geman.prox` (proximal/Geman.py:66-78) on one complex entry. -/
noncomputable def gemanProxC (sg : ℂ → ℂ) (σ γ τ : ℝ) (z : ℂ) : ℂ :=
  let b := 2 * γ - ‖z‖
  let c := γ ^ 2 - 2 * γ * ‖z‖
  let d := γ * σ * τ - γ ^ 2 * ‖z‖
  match gemanLocalMin b c d with
  | none => 0
  | some r => if τ * gemanElem σ γ r + (r - ‖z‖) ^ 2 / 2 < ‖z‖ ^ 2 / 2 then sg z * (r : ℂ) else 0

/-- `Geman` (proximal/Geman.py:48-90) on complex arrays. -/
noncomputable def GemanCx (sg : ℂ → ℂ) (σ γ : ℝ) : Py (ProxOp (CVec ι)) :=
  if σ < 0 then .error .valueError
  else if γ ≤ 0 then .error .valueError
  else .ok {
    call := fun x => .ok (.num (∑ i, σ * ‖x i‖ / (‖x i‖ + γ)))
    prox? := some fun x τ => checkTau τ (.ok (cmk fun i => gemanProxC sg σ γ τ (x i)))
    proxdual? := none
    grad? := none
    hasgrad := false
    sigmame := 1 }

/-- `ETP.elementwise` (proximal/ETP.py:65-70) on one complex entry. -/
noncomputable def etpElemC (σ γ : ℝ) (z : ℂ) : ℝ := σ / (1 - Real.exp (-γ)) * (1 - Real.exp (-γ * ‖z‖))

open Classical in
/-- `ETP.prox` (proximal/ETP.py:73-91) on one complex entry: the squares of lines 86-87 are complex and the comparison is lexicographic. -/
noncomputable def etpProxC (sg : ℂ → ℂ) (lambertw : ℝ → ℝ) (σ γ τ : ℝ) (z : ℂ) : ℂ :=
  let k := τ * σ / (1 - Real.exp (-γ))
  let tmp := Real.exp (-‖z‖ * γ) * k * γ ^ 2
  if tmp ≤ Real.exp (-1) then
    let stat := sg z * (lambertw (-tmp) : ℂ) / (γ : ℂ) + z
    if lexLt (((τ * etpElemC σ γ stat : ℝ) : ℂ) + (stat - z) ^ 2 / 2) (z ^ 2 / 2) then stat else 0
  else 0

/-- `ETP` (proximal/ETP.py:51-91) on complex arrays. -/
noncomputable def ETPCx (sg : ℂ → ℂ) (lambertw : ℝ → ℝ) (σ γ : ℝ) : Py (ProxOp (CVec ι)) :=
  if σ < 0 then .error .valueError
  else if γ ≤ 0 then .error .valueError
  else .ok {
    call := fun x => .ok (.num (∑ i, etpElemC σ γ (x i)))
    prox? := some fun x τ => checkTau τ (.ok (cmk fun i => etpProxC sg lambertw σ γ τ (x i)))
    proxdual? := none
    grad? := none
    hasgrad := false
    sigmame := 1 }

open Classical in
/-- `L0` (proximal/L0.py:86-111, `_hardthreshold` 15-40) on complex arrays with a constant `sigma`. -/
noncomputable def L0Cx (σ : ℝ) : ProxOp (CVec ι) where
  call := fun x => .ok (.num ((Finset.univ.filter fun i => ‖x i‖ > 0).card : ℝ))
  prox? := some fun x τ => checkTau τ (.ok (cmk fun i => if ‖x i‖ ≤ τ * σ then 0 else x i))
  proxdual? := none
  grad? := none
  hasgrad := false
  sigmame := 1

/-- `RelaxedMumfordShah` (proximal/RelaxedMS.py:72-107) on complex arrays with constant parameters. -/
noncomputable def RelaxedMSCx (σ κ : ℝ) : ProxOp (CVec ι) where
  call := fun x => .ok (.num (min (σ * ‖x‖ ^ 2) κ))
  prox? := some fun x τ => checkTau τ (if σ = 0 then .error .zeroDivisionError else .ok (cmk fun i =>
    if ‖x i‖ ≤ √(κ / σ * (1 + 2 * τ * σ)) then ((1 / (1 + 2 * (τ * σ)) : ℝ) : ℂ) * x i else x i))
  proxdual? := none
  grad? := none
  hasgrad := false
  sigmame := 1

open Classical in
/-- `L10Ball` (proximal/L0.py:195-227, projection/L0.py:71-75) on complex arrays with a constant radius; `argsort` sorts the sums of moduli of the columns. -/
noncomputable def L10BallCx (argsort : (κ → ℝ) → List κ) (radius : ℕ) : ProxOp (CVec (ι × κ)) where
  call := fun x => .ok (.bool (decide ((Finset.univ.filter fun j => ∑ i, ‖x (i, j)‖ ≠ 0).card ≤ radius)))
  prox? := some fun x τ => checkTau τ (.ok (cmk fun ij =>
    if ij.2 ∈ sliceMinus (argsort fun j => ∑ i, ‖x (i, j)‖) radius then 0 else x ij))
  proxdual? := none
  grad? := none
  hasgrad := false
  sigmame := 1

open Classical in
/-- `Box` (proximal/Box.py:28-43, projection/Box.py:48-50) with scalar bounds on complex arrays: all comparisons are lexicographic. -/
noncomputable def BoxCx (lower upper : ℝ) : ProxOp (CVec ι) where
  call := fun x => .ok (.bool (decide (∀ i, lexGe (x i) lower ∧ lexGe (upper : ℂ) (x i))))
  prox? := some fun x τ => checkTau τ (.ok (cBoxProj lower upper x))
  proxdual? := none
  grad? := none
  hasgrad := false
  sigmame := 1

open Classical in
/-- `HalfSpaceProj.__call__` (projection/HalfSpace.py:41-53) on complex arrays: `np.dot` does not conjugate and `<=` is lexicographic. -/
noncomputable def cHalfSpaceProj (w : CVec ι) (b : ℝ) (x : CVec ι) : Py (CVec ι) :=
  if lexGe (b : ℂ) (npDot w x) then .ok x
  else if npDot w w = 0 then .error .nanResult
  else .ok (cmk fun i => x i - (npDot w x - (b : ℂ)) / npDot w w * w i)

open Classical in
/-- `HalfSpace` (proximal/HalfSpace.py:29-40) on complex arrays. -/
noncomputable def HalfSpaceCx (w : CVec ι) (b : ℝ) : ProxOp (CVec ι) where
  call := fun x => .ok (.bool (decide (lexGe (b : ℂ) (npDot w x))))
  prox? := some fun x τ => checkTau τ (cHalfSpaceProj w b x)
  proxdual? := none
  grad? := none
  hasgrad := false
  sigmame := 1

end Verif
