import Verif.Model.GradTest
import Verif.Model.Proximal
import Verif.Model.ProjOps
import Verif.Model.L2
import Mathlib.Analysis.SpecialFunctions.Pow.Complex
import Mathlib.LinearAlgebra.Matrix.Defs
import Mathlib.Data.Matrix.Mul

/-!
# Complex arrays

The code paths taken, or the values computed, when the arrays passed to the operators are complex.  `CVec ι` is a complex array; as everywhere in the model, rounding is left out.
Numpy facts used: `np.angle` is the argument in `(-pi, pi]` with `np.angle(0) = 0`; `np.maximum`, `np.minimum` order complex numbers lexicographically; `np.sqrt` is the principal
square root; `float(z)` of a numpy complex scalar drops the imaginary part (with a warning).
-/

namespace Verif

variable {ι κ : Type} [Fintype ι] [Fintype κ]

/-- A complex array from its entries. -/
abbrev cmk (f : ι → ℂ) : CVec ι := WithLp.toLp 2 f

/-- `np.exp(1j * np.angle(x))` on one entry (proximal/L1.py:34, projection/L1.py:53, proximal/Log.py:170). -/
noncomputable def cphase (z : ℂ) : ℂ := Complex.exp (Complex.I * (Complex.arg z : ℂ))

/-- The complex branch of `_softthreshold` on one entry (proximal/L1.py:31-34). -/
noncomputable def cSoft (z : ℂ) (thresh : ℝ) : ℂ := (max (‖z‖ - thresh) 0 : ℝ) * cphase z

/-- Lexicographic `a >= b` on complex numbers, as numpy compares them. -/
def lexGe (a b : ℂ) : Prop := b.re < a.re ∨ (a.re = b.re ∧ b.im ≤ a.im)

open Classical in
/-- `np.maximum(a, b)` on complex numbers. -/
noncomputable def lexMax (a b : ℂ) : ℂ := if lexGe a b then a else b

open Classical in
/-- `np.minimum(a, b)` on complex numbers. -/
noncomputable def lexMin (a b : ℂ) : ℂ := if lexGe b a then a else b

/-- `BoxProj.__call__` (projection/Box.py:48-50) with scalar bounds on a complex array. -/
noncomputable def cBoxProj (lower upper : ℝ) (x : CVec ι) : CVec ι := cmk fun i => lexMin (lexMax (x i) lower) upper

/-- `_softthreshold` (proximal/L1.py:13-38) on a complex array. -/
noncomputable def cSoftthreshold (x : CVec ι) (thresh : ℝ) : CVec ι := cmk fun i => cSoft (x i) thresh

/-- `L1` (proximal/L1.py:107-154) on complex arrays, constant scalar `sigma`. -/
noncomputable def L1Cx (σ : ℝ) (g : Option (CVec ι)) : ProxOp (CVec ι) :=
  let pr : CVec ι → ℝ → Py (CVec ι) := fun x τ => checkTau τ (.ok (match g with
    | none => cSoftthreshold x (τ * σ)
    | some g => cSoftthreshold (x - g) (τ * σ) + g))
  { call := fun x => match g with
      | none => .ok (.num (σ * ∑ i, ‖x i‖))
      | some g => .ok (.num (σ * ∑ i, ‖(x - g) i‖))
    prox? := some pr
    proxdual? := some fun x τ => checkTau τ (match g with
      | none => .ok (cBoxProj (-σ) σ x)
      | some _ => ProxOp.moreauStep pr x τ)
    grad? := none
    hasgrad := false
    sigmame := 1 }

/-- `L1BallProj.__call__` (projection/L1.py:51-53), the complex branch. -/
noncomputable def cl1BallProj (bisect : (ℝ → ℝ) → ℝ → ℝ → ℝ) (fuel : ℕ) (radius : ℝ) (x : CVec ι) : Py (CVec ι) := do
  let s ← simplexProj bisect fuel radius (vmk fun i => ‖x i‖)
  pure (cmk fun i => cphase (x i) * (s i : ℂ))

open Classical in
/-- `L1Ball` (proximal/L1.py:182-201) on complex arrays. -/
noncomputable def L1BallCx (bisect : (ℝ → ℝ) → ℝ → ℝ → ℝ) (fuel : ℕ) (radius tol : ℝ) : ProxOp (CVec ι) where
  call := fun x => .ok (.bool (decide (∑ i, ‖x i‖ - radius < tol)))
  prox? := some fun x τ => checkTau τ (cl1BallProj bisect fuel radius x)
  proxdual? := none
  grad? := none
  hasgrad := false
  sigmame := 1

open Classical in
/-- `L0Ball` (proximal/L0.py:135-164, projection/L0.py:34-38) on complex arrays, constant radius; `argsort x` is `np.argsort(np.abs(x))`. -/
noncomputable def L0BallCx (argsort : CVec ι → List ι) (radius : ℕ) : ProxOp (CVec ι) where
  call := fun x => .ok (.bool (decide ((Finset.univ.filter fun i => x i ≠ 0).card ≤ radius)))
  prox? := some fun x τ => checkTau τ (.ok (cmk fun i => if i ∈ sliceMinus (argsort x) radius then 0 else x i))
  proxdual? := none
  grad? := none
  hasgrad := false
  sigmame := 1

/-- `Huber` (proximal/Huber.py:45-71) on complex arrays. -/
noncomputable def HuberCx (α : ℝ) : ProxOp (CVec ι) where
  call := fun x => .ok (.num (∑ i, if ‖x i‖ > α then ‖x i‖ - α / 2 else ‖x i‖ ^ 2 / (2 * α)))
  prox? := some fun x τ => checkTau τ (.ok (cmk fun i =>
    if ‖x i‖ > α then cSoft (x i) (τ * 1) else x i / ((1 + τ * (1 / α) : ℝ) : ℂ)))
  proxdual? := none
  grad? := none
  hasgrad := false
  sigmame := 1

/-- `np.sqrt` of a complex number: the principal square root. -/
noncomputable def npCSqrt (z : ℂ) : ℂ := z ^ (1 / 2 : ℂ)

/-- `np.sqrt(np.sum(x**2, axis=0))` (proximal/L21.py:68, 74, 82) on a complex array: squares, not squared moduli. -/
noncomputable def cColAux (x : CVec (ι × κ)) (j : κ) : ℂ := npCSqrt (∑ i, x (i, j) ^ 2)

open Classical in
/-- `L21` (proximal/L21.py:61-85) on complex arrays; as in the real model a division by zero is reported as `nanResult`. -/
noncomputable def L21Cx (σ : ℝ) : ProxOp (CVec (ι × κ)) where
  call := fun x => .ok (.num (σ * ∑ j, cColAux x j).re)
  prox? := some fun x τ => checkTau τ (
    if ∃ ij : ι × κ, lexMax (cColAux x ij.2) (τ * σ : ℝ) = 0 then .error .nanResult
    else .ok (cmk fun ij => (1 - (τ * σ : ℝ) / lexMax (cColAux x ij.2) (τ * σ : ℝ)) * x ij))
  proxdual? := some fun x τ => checkTau τ (
    if ∃ ij : ι × κ, lexMax (cColAux x ij.2) (σ : ℝ) = 0 then .error .nanResult
    else .ok (cmk fun ij => (σ : ℂ) * x ij / lexMax (cColAux x ij.2) (σ : ℝ)))
  grad? := none
  hasgrad := false
  sigmame := 1

/-- `np.nan_to_num(x / np.abs(x))` on one complex entry (proximal/L21_plus_L1.py:53): `0/0` is replaced by 0. -/
noncomputable def cSignNan (z : ℂ) : ℂ := if ‖z‖ = 0 then 0 else z / (‖z‖ : ℂ)

/-- Entries of `l1` (proximal/L21_plus_L1.py:47), real since they are computed from moduli. -/
noncomputable def cl1Shrink (σ ρ τ : ℝ) (x : CVec (ι × κ)) : Vec (ι × κ) :=
  vmk fun ij => max (‖x ij‖ - σ * τ * ρ) 0

open Classical in
/-- `L21_plus_L1` (proximal/L21_plus_L1.py:33-54) on complex arrays, `axis=0`. -/
noncomputable def L21plusL1Cx (σ ρ : ℝ) : ProxOp (CVec (ι × κ)) where
  call := fun x => .ok (.num ((ρ * σ * ∑ ij, ‖x ij‖ : ℝ) + (1 - ρ) * σ * ∑ j, cColAux x j : ℂ).re)
  prox? := some fun x τ => checkTau τ (
    let l1 := cl1Shrink σ ρ τ x
    if ∃ ij : ι × κ, shrinkFactor (σ * τ * (1 - ρ)) (colNorm l1 ij.2) = .error .nanResult then .error .nanResult
    else .ok (cmk fun ij => cSignNan (x ij) * (l1 ij : ℂ) *
      (Py.get (shrinkFactor (σ * τ * (1 - ρ)) (colNorm l1 ij.2)) : ℂ)))
  proxdual? := none
  grad? := none
  hasgrad := false
  sigmame := 1

/-- `np.dot(a, b)`: the sum of products, without conjugation. -/
noncomputable def npDot (a b : CVec ι) : ℂ := ∑ i, a i * b i

/-- `L2` without `Op` (proximal/L2.py:194-203, 284-306) on complex arrays: `b` and `q` default to none.  The counter has no effect here; that the caller's array may be
modified is in `Model/L2.lean`. -/
noncomputable def L2Cx (σ α : ℝ) (b q : Option (CVec ι)) (qgrad : Bool) : ProxOp (CVec ι) where
  call := fun x =>
    let f : ℝ := match b with
      | some b => σ / 2 * ‖x - b‖ ^ 2
      | none => σ / 2 * ‖x‖ ^ 2
    .ok (.num (match q with
      | some q => (f + α * npDot q x : ℂ).re
      | none => f))
  prox? := some fun x τ => checkTau τ (
    let num := match b with
      | some b => x + (τ * σ) • b
      | none => x
    let num := match q with
      | some q => num - (τ * α) • q
      | none => num
    if 1 + τ * σ = 0 then .error .nanResult else .ok ((1 / (1 + τ * σ)) • num))
  proxdual? := none
  grad? := some fun x =>
    let g := match b with
      | some b => σ • (x - b)
      | none => σ • x
    .ok (match q with
      | some q => if qgrad then g + α • q else g
      | none => g)
  hasgrad := true
  sigmame := 1

/-- `Quadratic.__call__` (proximal/Quadratic.py:94-101) on complex arrays, with `Op` the linear map `A` and offset `b`. -/
noncomputable def quadraticCallc (A : CVec ι → CVec ι) (b : CVec ι) (c : ℝ) (x : CVec ι) : Py CallVal :=
  .ok (.num (npDot x (A x) / 2 + npDot b x + c).re)

/-- `Nuclear.__call__` (proximal/Nuclear.py:63-67) on complex matrices with a scalar `sigma`.  `eigvalsh` is numpy's routine; it gets `X.T @ X`, which is not Hermitian in general. -/
noncomputable def nuclearCallc (eigvalsh : Matrix κ κ ℂ → κ → ℝ) (σ : ℝ) (X : Matrix ι κ ℂ) : Py CallVal :=
  .ok (.num (∑ k, σ * √(max (eigvalsh (X.transpose * X) k) 0)))

/-- `Log1.prox` on one entry of a complex array (proximal/Log.py:164-178); a negative number under the root is NaN. -/
noncomputable def log1Proxc (σ δ τ : ℝ) (z : ℂ) : Py ℂ :=
  let tau1 := σ * τ
  let thresh := √(2 * tau1) - δ
  if ‖z‖ > thresh then
    if ‖z + (δ : ℂ)‖ ^ 2 - 2 * tau1 < 0 then .error .nanResult
    else .ok (0.5 * cphase z * ((‖z‖ - δ + √(‖z + (δ : ℂ)‖ ^ 2 - 2 * tau1) : ℝ) : ℂ))
  else .ok 0

/-- The `while` loop of `_backtracking` (primal.py:37-51) on complex arrays: `np.dot` without conjugation, `float` keeping the real part. -/
noncomputable def backtrackC (f g : ProxOp (CVec ι)) (x : CVec ι) (epsg β : ℝ) : ℕ → ℝ → Option (CVec ι) → Py (CVec ι × ℝ)
  | 0, τ, z => match z with
    | none => .error .unboundLocalError
    | some z => .ok (z, τ)
  | n + 1, τ, _ => do
    let gx ← f.grad x
    let z ← g.prox (x - τ • gx) (epsg * τ)
    let fx ← f.call x
    let fz ← f.call z
    if fz.toReal ≤ ((fx.toReal : ℂ) + npDot gx (z - x) + (1 / (2 * τ) * ‖z - x‖ ^ 2 : ℝ)).re then
      .ok (z, τ)
    else
      backtrackC f g x epsg β n (τ * β) (some z)

/-- `ProximalGradient` (primal.py:374-444) on complex arrays with `backtracking=True`, `eta=1`, no acceleration, no tolerance and constant `epsg`: `n` iterations. -/
noncomputable def pgBacktrackC (f g : ProxOp (CVec ι)) (epsg β : ℝ) (niterback : ℕ) : ℕ → CVec ι → ℝ → Py (CVec ι × ℝ)
  | 0, x, τ => .ok (x, τ)
  | n + 1, x, τ => do
    let r ← backtrackC f g x epsg β niterback τ none
    pgBacktrackC f g epsg β niterback n r.1 r.2

end Verif
